import Verif.Proof.CC

/-! # Concurrent connected components: barriers, termination, result -/

namespace Verif.CC
open Res

/-- Thread `k` can do a step, or a barrier can be passed. -/
def Enabled (k : Nat) (s : State) : Prop :=
  s.phase ≠ .done ∧ (s.thr.all Thr.finished = true ∨
    ∃ t, s.thr[k]? = some t ∧ t.finished = false)

/-- One effective step of the computation. -/
def Step (e : Env) (s s' : State) : Prop := ∃ k, Enabled k s ∧ step e k s = ok s'

/-- Termination measure: lexicographic. -/
abbrev Meas := Nat × Nat × Nat

def Meas.lt : Meas → Meas → Prop := Prod.Lex (· < ·) (Prod.Lex (· < ·) (· < ·))

theorem Meas.wf : WellFounded Meas.lt :=
  (Prod.lex ⟨_, Nat.lt_wfRel.wf⟩ (Prod.lex ⟨_, Nat.lt_wfRel.wf⟩ ⟨_, Nat.lt_wfRel.wf⟩)).wf

theorem Meas.lt1 {a a' b b' c c' : Nat} (h : a < a') : Meas.lt (a, b, c) (a', b', c') :=
  Prod.Lex.left _ _ h
theorem Meas.lt2 {a b b' c c' : Nat} (h : b < b') : Meas.lt (a, b, c) (a, b', c') :=
  Prod.Lex.right _ (Prod.Lex.left _ _ h)
theorem Meas.lt3 {a b c c' : Nat} (h : c < c') : Meas.lt (a, b, c) (a, b, c') :=
  Prod.Lex.right _ (Prod.Lex.right _ h)

namespace Setup
variable {S : Setup}

/-- Number of roots. -/
def rootsN (S : Setup) (lab : List Int) : Nat :=
  sumN S.N (fun k => if S.L lab k = k then 1 else 0)

theorem rootsN_le (lab : List Int) : S.rootsN lab ≤ S.N :=
  sumN_bound (fun k _ => by split <;> omega)

theorem rootsN_lt {lab lab0 : List Int}
    (hr : ∀ k, k < S.N → S.L lab k = k → S.L lab0 k = k)
    (hl : ∃ r, r < S.N ∧ S.L lab0 r = r ∧ S.L lab r ≠ r) : S.rootsN lab < S.rootsN lab0 := by
  obtain ⟨r, h1, h2, h3⟩ := hl
  refine sumN_lt (k := r) ?_ h1 ?_
  · intro k hk
    by_cases h : S.L lab k = k
    · rw [if_pos h, if_pos (hr k hk h)]
    · rw [if_neg h]; omega
  · rw [if_neg h3, if_pos h2]; omega

/-- The invariant with its measure. -/
inductive Inv (S : Setup) (F : List Int) (m : Nat) : Meas → State → Prop where
  | init {s : State} (h : S.InitInv F m s) : Inv S F m (S.N + 1, 0, isum s.thr) s
  | hook {s : State} {lab0 : List Int} (h : S.HookInv F lab0 s) :
      Inv S F m (S.rootsN lab0, 2, hsum S s.thr) s
  | jump {s : State} {lab0 : List Int} (h : S.JumpInv F lab0 s) :
      Inv S F m (S.rootsN lab0, 1, jsum S s.lab s.thr) s
  | done {s : State} (h : S.DoneInv F s) : Inv S F m (0, 0, 0) s

theorem hook_start (h : S.Ok) {F lab : List Int} (hok : S.LabOk lab) (hst : S.Star lab)
    (hfr : S.Frame F lab) :
    S.HookInv F lab { lab := lab, change := false, phase := .hook, thr := S.e.hooks } := by
  refine { phase := rfl, ok0 := hok, star0 := hst, ok := hok, roots := fun _ _ h => h,
           frame := hfr, tlen := by rw [h.hooks, List.length_map]; rfl, thr := ?_,
           quiet := fun _ => rfl, lost := by simp }
  intro k t ht
  dsimp only at ht
  rw [h.hooks, List.getElem?_map] at ht
  obtain ⟨u, hu, rfl⟩ := Option.map_eq_some_iff.1 ht
  exact ⟨by simp [nd, hu], [], rfl, by simp⟩

theorem barrier_spec (h : S.Ok) {F : List Int} {m : Nat} {μ : Meas} {s : State}
    (hI : S.Inv F m μ s) (hnd : s.phase ≠ .done) (hall : s.thr.all Thr.finished = true) :
    ∃ μ', S.Inv F m μ' (barrier S.e s) ∧ Meas.lt μ' μ := by
  rw [List.all_eq_true] at hall
  cases hI with
  | done h => exact absurd h.phase hnd
  | init hI =>
    have hL : ∀ k, m ≤ k → k < S.N → S.L s.lab k = k := by
      intro k h1 h2
      have hlt : k - m < s.thr.length := by rw [hI.tlen]; omega
      have hx : s.thr[k - m]? = some s.thr[k - m] := List.getElem?_eq_getElem hlt
      have hT := hI.thr _ _ hx
      have hfin := hall _ (List.getElem_mem hlt)
      rw [show m + (k - m) = k by omega] at hT
      cases hc : s.thr[k - m] with
      | fin => rw [hc] at hT; exact hT
      | initSet u i => rw [hc] at hfin; simp [Thr.finished] at hfin
      | initChk u i => rw [hc] at hfin; simp [Thr.finished] at hfin
      | _ => rw [hc] at hT; exact hT.elim
    have hok : S.LabOk s.lab := by
      refine ⟨hI.len, fun k hk => ?_⟩
      by_cases hkm : k < m
      · exact (hI.old k hkm).1
      · rw [hL k (by omega) hk]; exact Good.self k
    have hst : S.Star s.lab := by
      intro k hk
      by_cases hkm : k < m
      · exact (hI.old k hkm).2
      · rw [hL k (by omega) hk, Int.toNat_natCast, hL k (by omega) hk]
    have hb : barrier S.e s = { lab := s.lab, change := false, phase := .hook, thr := S.e.hooks } := by
      unfold barrier
      rw [hI.phase]
    rw [hb]
    refine ⟨_, .hook (hook_start h hok hst hI.frame), Meas.lt1 ?_⟩
    have := S.rootsN_le s.lab
    omega
  | @hook _ lab0 hI =>
    have hb : barrier S.e s = { s with phase := .jump, thr := S.e.nodes.map .j0 } := by
      unfold barrier
      rw [hI.phase]
    rw [hb]
    suffices hJ : S.JumpInv F lab0 { s with phase := .jump, thr := S.e.nodes.map .j0 } from
      ⟨_, .jump hJ, Meas.lt2 (by omega)⟩
    refine { phase := rfl, ok := hI.ok, roots := hI.roots, frame := hI.frame,
             tlen := by rw [List.length_map]; rfl, thr := ?_, quiet := ?_, lost := ?_ }
    · intro k t ht
      dsimp only at ht
      rw [List.getElem?_map] at ht
      obtain ⟨u, hu, rfl⟩ := Option.map_eq_some_iff.1 ht
      show u = S.nd k
      simp [nd, hu]
    · intro hc
      refine ⟨hI.quiet hc, hI.star0, ?_⟩
      intro k hk v hv
      have hlt : k < s.thr.length := by rw [hI.tlen]; exact hk
      have hx : s.thr[k]? = some s.thr[k] := List.getElem?_eq_getElem hlt
      have hT := hI.thr _ _ hx
      have hfin := hall _ (List.getElem_mem hlt)
      dsimp only at hc
      cases hcs : s.thr[k] with
      | hNext u vs =>
        rw [hcs] at hT hfin
        cases vs with
        | nil =>
          obtain ⟨rfl, pre, hp, hq⟩ := hT
          rw [List.append_nil] at hp
          rw [hp] at hv
          exact hq hc v hv
        | cons a l => simp [Thr.finished] at hfin
      | hU => rw [hcs] at hfin; simp [Thr.finished] at hfin
      | hRoot => rw [hcs] at hfin; simp [Thr.finished] at hfin
      | hFlag => rw [hcs] at hfin; simp [Thr.finished] at hfin
      | hStore => rw [hcs] at hfin; simp [Thr.finished] at hfin
      | _ => rw [hcs] at hT; exact hT.elim
    · intro hc
      obtain ⟨r, h1, h2, h3⟩ := hI.lost hc
      refine ⟨r, h1, h2, ?_⟩
      rcases h3 with h3 | ⟨k, u, vs, lo, h3⟩
      · exact h3
      · have := hall _ (List.mem_of_getElem? h3)
        simp [Thr.finished] at this
  | @jump _ lab0 hI =>
    have hst : S.Star s.lab := by
      intro k hk
      have hlt : k < s.thr.length := by rw [hI.tlen]; exact hk
      have hx : s.thr[k]? = some s.thr[k] := List.getElem?_eq_getElem hlt
      have hT := hI.thr _ _ hx
      have hfin := hall _ (List.getElem_mem hlt)
      cases hcs : s.thr[k] with
      | fin => rw [hcs] at hT; exact hT
      | j0 => rw [hcs] at hfin; simp [Thr.finished] at hfin
      | j1 => rw [hcs] at hfin; simp [Thr.finished] at hfin
      | j2 => rw [hcs] at hfin; simp [Thr.finished] at hfin
      | j3 => rw [hcs] at hfin; simp [Thr.finished] at hfin
      | j4 => rw [hcs] at hfin; simp [Thr.finished] at hfin
      | j5 => rw [hcs] at hfin; simp [Thr.finished] at hfin
      | _ => rw [hcs] at hT; exact hT.elim
    cases hc : s.change with
    | true =>
      have hb : barrier S.e s
          = { lab := s.lab, change := false, phase := .hook, thr := S.e.hooks } := by
        unfold barrier
        rw [hI.phase]
        simp [hc]
      rw [hb]
      exact ⟨_, .hook (hook_start h hI.ok hst hI.frame), Meas.lt1 (rootsN_lt hI.roots (hI.lost hc))⟩
    | false =>
      have hb : barrier S.e s = { s with phase := .done } := by
        unfold barrier
        rw [hI.phase]
        simp [hc]
      rw [hb]
      obtain ⟨h1, h2, h3⟩ := hI.quiet hc
      have hD : S.DoneInv F { s with phase := .done } :=
        ⟨rfl, hI.ok, hI.frame, hst, by rw [h1]; exact h3, List.all_eq_true.2 hall⟩
      refine ⟨_, .done hD, ?_⟩
      by_cases h0 : S.rootsN lab0 = 0
      · rw [h0]; exact Meas.lt2 (by omega)
      · exact Meas.lt1 (by omega)

theorem exec_finished (e : Env) {t : Thr} (h : t.finished = true) (lab : List Int) (c : Bool) :
    exec e t lab c = ok (t, lab, c) := by
  cases t with
  | fin => rfl
  | hNext u vs =>
    cases vs with
    | nil => rfl
    | cons => simp [Thr.finished] at h
  | _ => simp [Thr.finished] at h

theorem step_spec (h : S.Ok) {F : List Int} {m : Nat} {μ : Meas} {s : State}
    (hI : S.Inv F m μ s) (k : Nat) :
    wp (step S.e k s) (fun s' => (Enabled k s ∧ ∃ μ', S.Inv F m μ' s' ∧ Meas.lt μ' μ) ∨
      (¬ Enabled k s ∧ s' = s)) := by
  by_cases hd : s.phase = .done
  · have hne : ¬ Enabled k s := fun h => h.1 hd
    unfold step
    by_cases hall : s.thr.all Thr.finished = true
    · rw [if_pos hall]
      simp only [wp_ok]
      exact .inr ⟨hne, by unfold barrier; rw [hd]⟩
    · rw [if_neg hall]
      cases hI with
      | done h => exact absurd h.fin hall
      | init h => exact absurd (h.phase.symm.trans hd) (by decide)
      | hook h => exact absurd (h.phase.symm.trans hd) (by decide)
      | jump h => exact absurd (h.phase.symm.trans hd) (by decide)
  · unfold step
    by_cases hall : s.thr.all Thr.finished = true
    · rw [if_pos hall]
      simp only [wp_ok]
      exact .inl ⟨⟨hd, .inl hall⟩, barrier_spec h hI hd hall⟩
    · rw [if_neg hall]
      cases ht : s.thr[k]? with
      | none =>
        refine .inr ⟨?_, rfl⟩
        rintro ⟨_, h' | ⟨t, h', _⟩⟩
        · exact hall h'
        · rw [ht] at h'; simp at h'
      | some t =>
        dsimp only
        by_cases hf : t.finished = true
        · rw [exec_finished _ hf]
          simp only [ok_bind, wp_ok]
          refine .inr ⟨?_, ?_⟩
          · rintro ⟨_, h' | ⟨t', h', h''⟩⟩
            · exact hall h'
            · rw [ht] at h'
              cases h'
              rw [hf] at h''
              simp at h''
          · have : s.thr.set k t = s.thr := by
              rw [← List.getElem_of_getElem? ht |>.2]
              exact List.set_getElem_self _
            rw [this]
        · have hf : t.finished = false := by simpa using hf
          have hen : Enabled k s := ⟨hd, .inr ⟨t, ht, hf⟩⟩
          simp only [wp_bind]
          cases hI with
          | done h => exact absurd h.phase hd
          | init hI =>
            refine wp_mono (init_step h hI ht hf) ?_
            rintro ⟨t', lab, c⟩ ⟨h1, h2⟩
            exact .inl ⟨hen, _, .init h1, Meas.lt3 h2⟩
          | hook hI =>
            refine wp_mono (hook_step h hI ht hf) ?_
            rintro ⟨t', lab, c⟩ ⟨h1, h2⟩
            exact .inl ⟨hen, _, .hook h1, Meas.lt3 h2⟩
          | jump hI =>
            refine wp_mono (jump_step h hI ht hf) ?_
            rintro ⟨t', lab, c⟩ ⟨h1, h2⟩
            exact .inl ⟨hen, _, .jump h1, Meas.lt3 h2⟩

/-- Result of the whole computation. -/
theorem run_spec (h : S.Ok) {F : List Int} {m : Nat} {μ : Meas} {s : State}
    (hI : S.Inv F m μ s) (sch : List Nat) :
    wpl (run S.e sch s) (S.DoneInv F) := by
  unfold run
  have : wp (forEach sch (step S.e) s) (fun s' => ∃ μ, S.Inv F m μ s') := by
    have := forEach_wp (fun _ s' => ∃ μ, S.Inv F m μ s') (f := step S.e) sch [] s ⟨μ, hI⟩ ?_
    · exact this
    · rintro _ k _ s' _ ⟨μ', h'⟩
      refine wp_mono (step_spec h h' k) ?_
      rintro s'' (⟨_, μ'', h'', _⟩ | ⟨_, rfl⟩)
      · exact ⟨μ'', h''⟩
      · exact ⟨μ', h'⟩
  obtain ⟨s', h1, μ', h2⟩ := wp_iff.1 this
  rw [h1]
  simp only [ok_bind]
  by_cases hd : s'.phase = .done
  · rw [if_pos hd]
    simp only [wpl_ok]
    cases h2 with
    | done h => exact h
    | init h => exact absurd (h.phase.symm.trans hd) (by decide)
    | hook h => exact absurd (h.phase.symm.trans hd) (by decide)
    | jump h => exact absurd (h.phase.symm.trans hd) (by decide)
  · rw [if_neg hd]; simp

theorem exists_enabled {s : State} (hd : s.phase ≠ .done) : ∃ k, Enabled k s := by
  by_cases hall : s.thr.all Thr.finished = true
  · exact ⟨0, hd, .inl hall⟩
  · rw [List.all_eq_true] at hall
    push Not at hall
    obtain ⟨t, ht, hf⟩ := hall
    obtain ⟨k, hk, rfl⟩ := List.mem_iff_getElem.1 ht
    exact ⟨k, hd, .inr ⟨_, List.getElem?_eq_getElem hk, by simpa using hf⟩⟩

/-- Some interleaving finishes. -/
theorem run_complete (h : S.Ok) {F : List Int} {m : Nat} : ∀ (μ : Meas) (s : State),
    S.Inv F m μ s → ∃ sch s', run S.e sch s = ok s' := by
  intro μ
  induction μ using Meas.wf.induction with
  | _ μ ih =>
    intro s hI
    by_cases hd : s.phase = .done
    · exact ⟨[], s, by simp [run, forEach, hd]⟩
    · obtain ⟨k, hk⟩ := exists_enabled hd
      obtain ⟨s', h1, h2⟩ := wp_iff.1 (step_spec h hI k)
      rcases h2 with ⟨_, μ', h3, h4⟩ | ⟨h3, _⟩
      · obtain ⟨sch, s'', h5⟩ := ih μ' h4 s' h3
        refine ⟨k :: sch, s'', ?_⟩
        unfold run at h5 ⊢
        simp only [forEach, h1, ok_bind]
        exact h5
      · exact absurd hk h3

/-- No infinite execution. -/
theorem step_acc (h : S.Ok) {F : List Int} {m : Nat} : ∀ (μ : Meas) (s : State),
    S.Inv F m μ s → Acc (fun b a => Step S.e a b) s := by
  intro μ
  induction μ using Meas.wf.induction with
  | _ μ ih =>
    intro s hI
    refine ⟨_, fun s' hs' => ?_⟩
    obtain ⟨k, hk, h1⟩ := hs'
    have h2 := step_spec h hI k
    rw [h1] at h2
    rcases h2 with ⟨_, μ', h3, h4⟩ | ⟨h3, _⟩
    · exact ih μ' h4 s' h3
    · exact absurd hk h3

theorem reach_inv (h : S.Ok) {F : List Int} {m : Nat} {μ : Meas} {s s' : State}
    (hI : S.Inv F m μ s) (hs : Relation.ReflTransGen (Step S.e) s s') : ∃ μ, S.Inv F m μ s' := by
  induction hs with
  | refl => exact ⟨_, hI⟩
  | tail hab hbc ih =>
    obtain ⟨μ, hμ⟩ := ih
    obtain ⟨k, hk, h1⟩ := hbc
    have h2 := step_spec h hμ k
    rw [h1] at h2
    rcases h2 with ⟨_, μ', h3, _⟩ | ⟨h3, _⟩
    · exact ⟨μ', h3⟩
    · exact absurd hk h3

/-- Connected nodes have equal labels at the end. -/
theorem DoneInv.eq_of_C {F : List Int} {s : State} (hD : S.DoneInv F s) {u v : Nat}
    (hC : S.C u v) : s.lab.getD u 0 = s.lab.getD v 0 := by
  induction hC with
  | rel u v hE =>
    obtain ⟨hu, hv⟩ := hE
    obtain ⟨k, hk, rfl⟩ := exists_pos hu
    exact hD.edges k hk v hv
  | refl => rfl
  | symm _ _ _ ih => exact ih.symm
  | trans _ _ _ _ _ ih1 ih2 => exact ih1.trans ih2

theorem DoneInv.C_of_eq {F : List Int} {s : State} (hD : S.DoneInv F s) {u v : Nat}
    (hu : u ∈ S.e.nodes) (hv : v ∈ S.e.nodes) (he : s.lab.getD u 0 = s.lab.getD v 0) :
    S.C u v := by
  obtain ⟨k, hk, rfl⟩ := exists_pos hu
  obtain ⟨l, hl, rfl⟩ := exists_pos hv
  have h1 := (hD.ok.good k hk).2.2
  have h2 := (hD.ok.good l hl).2.2
  have e : S.L s.lab k = S.L s.lab l := he
  rw [e] at h1
  exact h1.symm.trans h2

end Setup
end Verif.CC
