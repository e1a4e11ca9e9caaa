import Verif.Model.Exec
import Verif.ResLemmas
import Verif.Proof.Graph

/-! Solver threads: determinism of race-free loops, row semantics, level loop. -/

namespace Verif.Exec
open Res

variable {V : Type} {A : Arith V}

/-- Run a straight-line code alone. -/
def solo (A : Arith V) : List (Instr V) → Cpu V → Res (Cpu V)
  | [], c => ok c
  | ins :: rest, c => ins.exec A c >>= solo A rest

theorem solo_append (l₁ l₂ : List (Instr V)) (c : Cpu V) :
    solo A (l₁ ++ l₂) c = (solo A l₁ c >>= solo A l₂) := by
  induction l₁ generalizing c with
  | nil => rfl
  | cons i l ih =>
    simp only [List.cons_append, solo]
    cases h : i.exec A c with
    | ok c' => simp only [ok_bind]; exact ih c'
    | _ => rfl

theorem mem_touched_of_mem {code : List (Instr V)} {i : Instr V} (h : i ∈ code) :
    i.addr ∈ touched code := List.mem_map_of_mem h

theorem writes_subset_touched {code : List (Instr V)} {a : Nat} (h : a ∈ writes code) :
    a ∈ touched code := by
  rw [writes, List.mem_flatMap] at h
  obtain ⟨i, hi, ha⟩ := h
  have : a = i.addr := by cases i <;> simp_all [Instr.writes, Instr.addr]
  rw [this]; exact mem_touched_of_mem hi

/-- One access in two memories that agree on the touched location. -/
theorem exec_agree {i : Instr V} {r1 r2 : Option V} {m m' : List V} {c : Cpu V}
    (h : i.exec A ⟨r1, r2, m⟩ = ok c) (hm : m'[i.addr]? = m[i.addr]?) :
    ∃ c', i.exec A ⟨r1, r2, m'⟩ = ok c' ∧ c'.r1 = c.r1 ∧ c'.r2 = c.r2 ∧
      c'.mem.length = m'.length ∧ c.mem.length = m.length ∧
      c'.mem[i.addr]? = c.mem[i.addr]? ∧
      (∀ a, a ∉ i.writes → c'.mem[a]? = m'[a]? ∧ c.mem[a]? = m[a]?) ∧
      (∀ a, a ≠ i.addr → c'.mem[a]? = m'[a]? ∧ c.mem[a]? = m[a]?) := by
  have hlen : ∀ a, m'[a]? = m[a]? → (a < m.length ↔ a < m'.length) := by
    intro a ha
    have h1 := List.getElem?_eq_none_iff (l := m) (i := a)
    have h2 := List.getElem?_eq_none_iff (l := m') (i := a)
    rw [ha, h1] at h2
    omega
  cases i with
  | ld1 a =>
    simp only [Instr.exec, rd, Instr.addr] at h hm ⊢
    rw [hm]
    cases hma : m[a]? with
    | none => rw [hma] at h; cases h
    | some v =>
      rw [hma] at h
      simp at h
      subst h
      refine ⟨_, rfl, rfl, rfl, rfl, rfl, by rw [hm, hma], ?_, ?_⟩ <;> simp
  | ld2 a =>
    simp only [Instr.exec, rd, Instr.addr] at h hm ⊢
    rw [hm]
    cases hma : m[a]? with
    | none => rw [hma] at h; cases h
    | some v =>
      rw [hma] at h
      simp at h
      subst h
      refine ⟨_, rfl, rfl, rfl, rfl, rfl, by rw [hm, hma], ?_, ?_⟩ <;> simp
  | sub a l =>
    simp only [Instr.exec, Instr.addr] at h hm ⊢
    cases r1 with
    | none => cases h
    | some v =>
      cases r2 with
      | none => cases h
      | some w =>
        simp only [wr] at h ⊢
        split at h
        · rename_i hlt
          have hlt' := (hlen a hm).1 hlt
          rw [if_pos hlt']
          simp at h
          subst h
          refine ⟨_, rfl, rfl, rfl, by simp, by simp, by simp [hlt, hlt'], ?_, ?_⟩
          · intro b hb
            simp [Instr.writes] at hb
            have : ¬ a = b := fun h => hb h.symm
            simp [this]
          · intro b hb
            have : ¬ a = b := fun h => hb h.symm
            simp [this]
        · cases h
  | div a d =>
    simp only [Instr.exec, Instr.addr] at h hm ⊢
    cases r1 with
    | none => cases h
    | some v =>
      simp only [wr] at h ⊢
      split at h
      · rename_i hlt
        have hlt' := (hlen a hm).1 hlt
        rw [if_pos hlt']
        simp at h
        subst h
        refine ⟨_, rfl, rfl, rfl, by simp, by simp, by simp [hlt, hlt'], ?_, ?_⟩
        · intro b hb
          simp [Instr.writes] at hb
          have : ¬ a = b := fun h => hb h.symm
          simp [this]
        · intro b hb
          have : ¬ a = b := fun h => hb h.symm
          simp [this]
      · cases h

/-- No location written by one code is touched by another. -/
def RaceFree (codes : List (List (Instr V))) : Prop :=
  ∀ (s t : Nat) (cs ct : List (Instr V)), codes[s]? = some cs → codes[t]? = some ct → s ≠ t →
    ∀ a ∈ writes cs, a ∉ touched ct

/-- Invariant relating an interleaved run to the solo runs of the threads from `m0`. -/
structure Sim (A : Arith V) (codes : List (List (Instr V))) (m0 : List V)
    (ths : List (Thread V)) (mem : List V) : Prop where
  len : ths.length = codes.length
  mlen : mem.length = m0.length
  frame : ∀ a, (∀ c ∈ codes, a ∉ writes c) → mem[a]? = m0[a]?
  thr : ∀ (t : Nat) (c : List (Instr V)), codes[t]? = some c → ∃ th done cpu, ths[t]? = some th ∧
    c = done ++ th.code ∧ solo A done ⟨none, none, m0⟩ = ok cpu ∧
    cpu.r1 = th.r1 ∧ cpu.r2 = th.r2 ∧ ∀ a ∈ touched c, mem[a]? = cpu.mem[a]?

theorem runSched_sim {codes : List (List (Instr V))} {m0 : List V} (hrf : RaceFree codes)
    (hsolo : ∀ c ∈ codes, ∃ cpu, solo A c ⟨none, none, m0⟩ = ok cpu) :
    ∀ (sch : List Nat) (ths : List (Thread V)) (mem : List V), Sim A codes m0 ths mem →
      wp (runSched A sch ths mem) (fun r => Sim A codes m0 r.1 r.2) := by
  intro sch
  induction sch with
  | nil => intro ths mem h; simpa [runSched] using h
  | cons t sch ih =>
    intro ths mem h
    simp only [runSched]
    cases hth : ths[t]? with
    | none => exact ih ths mem h
    | some th =>
      dsimp only
      cases hcode : th.code with
      | nil => exact ih ths mem h
      | cons ins rest =>
        dsimp only
        have htl : t < ths.length := by
          by_contra hc
          rw [List.getElem?_eq_none (by omega)] at hth
          cases hth
        have htc : t < codes.length := by rw [← h.len]; exact htl
        have hct : codes[t]? = some codes[t] := List.getElem?_eq_getElem htc
        obtain ⟨th', done, cpu, h1, h2, h3, h4, h5, h6⟩ := h.thr t codes[t] hct
        rw [hth] at h1
        cases h1
        rw [hcode] at h2
        -- the solo run of thread t goes on
        obtain ⟨cpuF, hF⟩ := hsolo _ (List.getElem_mem htc)
        rw [h2, solo_append, h3] at hF
        simp only [ok_bind, solo] at hF
        obtain ⟨cpu', hex⟩ : ∃ cpu', ins.exec A cpu = ok cpu' := by
          cases hx : ins.exec A cpu with
          | ok c => exact ⟨c, rfl⟩
          | ub => rw [hx] at hF; cases hF
          | exn => rw [hx] at hF; cases hF
          | nofuel => rw [hx] at hF; cases hF
        have hins : ins ∈ codes[t] := by rw [h2]; simp
        have hagree := h6 ins.addr (mem_touched_of_mem hins)
        have hex' : ins.exec A ⟨th.r1, th.r2, cpu.mem⟩ = ok cpu' := by
          rw [← h4, ← h5]; exact hex
        obtain ⟨c', e1, e2, e3, e4, e5, e6, e7, e8⟩ := exec_agree hex' hagree
        rw [e1]
        simp only [ok_bind]
        apply ih
        refine ⟨by simpa using h.len, by rw [e4]; exact h.mlen, ?_, ?_⟩
        · intro a ha
          have : a ∉ ins.writes := by
            intro hc
            apply ha _ (List.getElem_mem htc)
            rw [writes, List.mem_flatMap]
            exact ⟨ins, hins, hc⟩
          rw [(e7 a this).1]
          exact h.frame a ha
        · intro s c hs
          by_cases hst : s = t
          · subst hst
            rw [hct] at hs
            cases hs
            refine ⟨⟨rest, c'.r1, c'.r2⟩, done ++ [ins], cpu', by simp [htl], ?_, ?_, e2.symm,
              e3.symm, ?_⟩
            · rw [h2]; simp
            · rw [solo_append, h3]
              simp only [ok_bind, solo, hex]
            · intro a ha
              by_cases haa : a = ins.addr
              · subst haa; exact e6
              · rw [(e8 a haa).1, (e8 a haa).2]; exact h6 a ha
          · obtain ⟨th2, done2, cpu2, g1, g2, g3, g4, g5, g6⟩ := h.thr s c hs
            refine ⟨th2, done2, cpu2, ?_, g2, g3, g4, g5, ?_⟩
            · rw [List.getElem?_set_ne (fun hc => hst hc.symm)]; exact g1
            · intro a ha
              have : a ∉ ins.writes := by
                intro hc
                refine hrf t s codes[t] c hct hs (fun h => hst h.symm) a ?_ ha
                rw [writes, List.mem_flatMap]
                exact ⟨ins, hins, hc⟩
              rw [(e7 a this).1]
              exact g6 a ha

/-- A race-free loop: every execution that finishes leaves in every location written by a thread
what the thread running alone leaves there, and does not change any other location. -/
theorem parFor_spec {codes : List (List (Instr V))} {m0 : List V} (hrf : RaceFree codes)
    (hsolo : ∀ c ∈ codes, ∃ cpu, solo A c ⟨none, none, m0⟩ = ok cpu) (sch : List Nat) :
    wpl (parFor A codes sch m0) (fun mem => mem.length = m0.length ∧
      (∀ a, (∀ c ∈ codes, a ∉ writes c) → mem[a]? = m0[a]?) ∧
      (∀ c ∈ codes, ∀ cpu, solo A c ⟨none, none, m0⟩ = ok cpu → ∀ a ∈ writes c,
        mem[a]? = cpu.mem[a]?)) := by
  unfold parFor
  simp only [wpl_bind]
  refine wpl_of_wp (wp_mono (runSched_sim (A := A) hrf hsolo sch _ m0 ?_) ?_)
  · refine ⟨by simp, rfl, fun _ _ => rfl, ?_⟩
    intro t c hc
    exact ⟨⟨c, none, none⟩, [], ⟨none, none, m0⟩, by simp [hc], rfl, rfl, rfl, rfl, fun _ _ => rfl⟩
  · rintro ⟨ths, mem⟩ h
    dsimp only at h ⊢
    split
    · rename_i hall
      simp only [wpl_ok]
      refine ⟨h.mlen, h.frame, ?_⟩
      intro c hc cpu hcpu a ha
      obtain ⟨t, ht, rfl⟩ := List.mem_iff_getElem.1 hc
      obtain ⟨th, done, cpu2, h1, h2, h3, h4, h5, h6⟩ :=
        h.thr t _ (List.getElem?_eq_getElem ht)
      have hemp : th.code = [] := by
        have := List.all_eq_true.1 hall th (List.mem_of_getElem? h1)
        simpa using this
      rw [hemp, List.append_nil] at h2
      rw [← h2, hcpu] at h3
      cases h3
      exact h6 a (writes_subset_touched ha)
    · simp

/-- There is an execution that finishes: let the threads run one after the other. -/
theorem parFor_complete {codes : List (List (Instr V))} {m0 : List V} (hrf : RaceFree codes)
    (hsolo : ∀ c ∈ codes, ∃ cpu, solo A c ⟨none, none, m0⟩ = ok cpu) :
    ∃ sch mem, parFor A codes sch m0 = ok mem := by
  -- progress: a non-empty code can be shortened
  have key : ∀ (k : Nat) (ths : List (Thread V)) (mem : List V), Sim A codes m0 ths mem →
      (ths.map (fun th => th.code.length)).sum = k →
      ∃ sch ths' mem', runSched A sch ths mem = ok (ths', mem') ∧
        ths'.all (fun th => th.code.isEmpty) = true := by
    intro k
    induction k with
    | zero =>
      intro ths mem _ hk
      refine ⟨[], ths, mem, rfl, ?_⟩
      rw [List.all_eq_true]
      intro th hth
      have := List.sum_eq_zero_iff.1 hk th.code.length (List.mem_map_of_mem hth)
      rw [List.isEmpty_iff]
      exact List.length_eq_zero_iff.1 this
    | succ k ih =>
      intro ths mem hs hk
      obtain ⟨t, ht, hne⟩ : ∃ t, ∃ h : t < ths.length, ths[t].code ≠ [] := by
        by_contra hc
        push Not at hc
        have : (ths.map (fun th => th.code.length)).sum = 0 := by
          rw [List.sum_eq_zero_iff]
          intro x hx
          obtain ⟨th, hth, rfl⟩ := List.mem_map.1 hx
          obtain ⟨t, ht, rfl⟩ := List.mem_iff_getElem.1 hth
          rw [hc t ht]; rfl
        omega
      have hrun := runSched_sim (A := A) hrf hsolo [t] ths mem hs
      obtain ⟨⟨ths1, mem1⟩, hr, hs1⟩ := wp_iff.1 hrun
      have hk1 : (ths1.map (fun th => th.code.length)).sum = k := by
        simp only [runSched, List.getElem?_eq_getElem ht] at hr
        cases hcode : ths[t].code with
        | nil => exact absurd hcode hne
        | cons ins rest =>
          rw [hcode] at hr
          simp only at hr
          cases hx : ins.exec A ⟨ths[t].r1, ths[t].r2, mem⟩ with
          | ok c =>
            rw [hx] at hr
            simp at hr
            rw [← hr.1, List.map_set]
            have hlt : t < (ths.map (fun th => th.code.length)).length := by simpa using ht
            have h2 : (ths.map (fun th => th.code.length)).sum
                = ((ths.map (fun th => th.code.length)).set t rest.length).sum + 1 := by
              rw [List.sum_set, ← List.sum_take_add_sum_drop _ t,
                List.drop_eq_getElem_cons hlt]
              simp [ht, hcode]
              omega
            dsimp only
            omega
          | ub => rw [hx] at hr; cases hr
          | exn => rw [hx] at hr; cases hr
          | nofuel => rw [hx] at hr; cases hr
      obtain ⟨sch, ths', mem', h1, h2⟩ := ih ths1 mem1 hs1 hk1
      refine ⟨t :: sch, ths', mem', ?_, h2⟩
      have happ : ∀ (l₁ l₂ : List Nat) ths mem, runSched A (l₁ ++ l₂) ths mem
          = (runSched A l₁ ths mem >>= fun r => runSched A l₂ r.1 r.2) := by
        intro l₁
        induction l₁ with
        | nil => intros; rfl
        | cons a l ih2 =>
          intro l₂ ths mem
          simp only [List.cons_append, runSched]
          cases ths[a]? with
          | none => exact ih2 l₂ ths mem
          | some th =>
            dsimp only
            cases th.code with
            | nil => exact ih2 l₂ ths mem
            | cons ins rest =>
              dsimp only
              cases ins.exec A ⟨th.r1, th.r2, mem⟩ with
              | ok c => simp only [ok_bind]; exact ih2 _ _ _
              | _ => rfl
      have := happ [t] sch ths mem
      simp only [List.singleton_append] at this
      rw [this, hr]
      simpa using h1
  have h0 : Sim A codes m0 (codes.map fun c => ⟨c, none, none⟩) m0 := by
    refine ⟨by simp, rfl, fun _ _ => rfl, ?_⟩
    intro t c hc
    exact ⟨⟨c, none, none⟩, [], ⟨none, none, m0⟩, by simp [hc], rfl, rfl, rfl, rfl, fun _ _ => rfl⟩
  obtain ⟨sch, ths', mem', h1, h2⟩ := key _ _ m0 h0 rfl
  refine ⟨sch, mem', ?_⟩
  unfold parFor
  rw [h1]
  simp only [ok_bind]
  rw [if_pos h2]

end Verif.Exec
