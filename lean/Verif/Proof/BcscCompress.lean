import Verif.Proof.Bcsc

/-! `compressed_BCSC_to_CSC` always writes past its index array. -/

namespace Verif.Bcsc
open Res

/-- The outcome is undefined behaviour, or a state with `Q`. -/
def wpu {α : Type _} (x : Res α) (Q : α → Prop) : Prop :=
  match x with
  | ok a => Q a
  | ub => True
  | _ => False

section wpu
variable {α β σ : Type _}

theorem wpu_ok (a : α) (Q : α → Prop) : wpu (ok a) Q = Q a := rfl

theorem wpu_bind {x : Res α} {f : α → Res β} {Q : β → Prop} (h : wpu x (fun a => wpu (f a) Q)) :
    wpu (x >>= f) Q := by
  cases x <;> exact h

theorem wpu_mono {x : Res α} {Q R : α → Prop} (h : wpu x Q) (hi : ∀ a, Q a → R a) : wpu x R := by
  cases x <;> simp_all [wpu]

theorem wpu_wr {l : List α} {k : Nat} {v : α} {Q : List α → Prop} (h : k < l.length → Q (l.set k v)) :
    wpu (wr l k v) Q := by
  by_cases hk : k < l.length
  · rw [wr_eq hk]; exact h hk
  · unfold wr
    rw [if_neg hk]; trivial

theorem wpu_rd {l : List α} {k : Nat} {Q : α → Prop} (h : ∀ v, l[k]? = some v → Q v) :
    wpu (rd l k) Q := by
  unfold rd
  cases hc : l[k]? with
  | none => trivial
  | some v => exact h v hc

theorem wpu_forN (I : Nat → σ → Prop) {f : Nat → σ → Res σ} (hi : Nat) :
    ∀ (c lo : Nat) (s : σ), lo + c = hi → I lo s →
      (∀ i s, lo ≤ i → i < hi → I i s → wpu (f i s) (I (i + 1))) → wpu (forN c lo f s) (I hi) := by
  intro c
  induction c with
  | zero =>
    intro lo s h hI _
    simp only [forN]
    obtain rfl : lo = hi := by omega
    exact hI
  | succ c ih =>
    intro lo s h hI hstep
    simp only [forN]
    refine wpu_bind (wpu_mono (hstep lo s (le_refl _) (by omega) hI) ?_)
    intro a ha
    exact ih (lo + 1) a (by omega) ha (fun i s h1 h2 => hstep i s (by omega) h2)

theorem wpu_forEach {α σ : Type _} (I : Nat → σ → Prop) {f : α → σ → Res σ} :
    ∀ (l : List α) (k : Nat) (s : σ), I k s → (∀ a k s, I k s → wpu (f a s) (I (k + 1))) →
      wpu (forEach l f s) (I (k + l.length)) := by
  intro l
  induction l with
  | nil => intro k s h _; exact h
  | cons a l ih =>
    intro k s h hstep
    simp only [forEach]
    refine wpu_bind (wpu_mono (hstep a k s h) ?_)
    intro b hb
    have := ih (k + 1) b hb hstep
    rw [List.length_cons, show k + (l.length + 1) = k + 1 + l.length by omega]
    exact this

end wpu

theorem supers_wp {n nodes : Nat} {super : List Nat} (hp : PtrOk super nodes n) :
    wp (supers n nodes super) (fun sup => sup.length = n ∧ ∀ v, v < n → sup.getD v 0 < nodes) := by
  have hpl := hp.len
  unfold supers
  rw [wp_bind]
  refine forRange_wp' (fun i (st : List Nat × Nat) => st.1.length = n ∧ st.2 = super.getD i 0 ∧
    ∀ v, v < st.2 → st.1.getD v 0 < nodes) (by omega) ⟨by simp, hp.d0.symm, by intro v hv; simp at hv⟩ ?_ ?_
  · rintro i ⟨s, c⟩ _ hi ⟨h1, h2, h3⟩
    dsimp only at h1 h2 h3 ⊢
    have hab := hp.dmono hi
    have hb := hp.dle (b := i + 1) (by omega)
    rw [rd_getD 0 (show i < super.length by omega), ok_bind, rd_getD 0 (show i + 1 < super.length by omega), ok_bind]
    refine whileF_wp (fun (st : List Nat × Nat) => st.1.length = n ∧ super.getD i 0 ≤ st.2 ∧
      st.2 ≤ super.getD (i + 1) 0 ∧ ∀ v, v < st.2 → st.1.getD v 0 < nodes)
      (fun st => super.getD (i + 1) 0 - st.2) ?_ _ _ (by show _ - c ≤ _; omega) ⟨h1, by show _ ≤ c; omega, by show c ≤ _; omega, h3⟩
    rintro ⟨s, c⟩ ⟨a1, a2, a3, a4⟩
    dsimp only at a1 a2 a3 a4 ⊢
    rw [wp_ok]
    by_cases hc : super.getD i 0 ≤ c ∧ c < super.getD (i + 1) 0
    · rw [if_pos (by simpa using hc)]
      refine ⟨by omega, ?_⟩
      rw [wr_eq (by omega), ok_bind, wp_ok]
      refine ⟨⟨by simp [a1], by dsimp only; omega, by dsimp only; omega, ?_⟩, by dsimp only; omega⟩
      intro v hv
      dsimp only at hv ⊢
      rw [getD_set]
      split
      · exact hi
      · exact a4 v (by omega)
    · rw [if_neg (by simpa using hc)]
      exact ⟨a1, by omega, a4⟩
  · rintro ⟨s, c⟩ ⟨h1, h2, h3⟩
    rw [wp_ok]
    dsimp only at h1 h2 h3 ⊢
    rw [hp.dlast] at h2
    exact ⟨h1, fun v hv => h3 v (by omega)⟩

/-- The rows of block `j` can be read. -/
def Reads {V : Type _} (n : Nat) (B : Blocked V) : Prop :=
  ∀ j, j < B.nodes → ∃ nr off, B.nrows[j]? = some nr ∧ B.p[j]? = some off ∧
    ∀ r, r < nr → ∃ c, B.i[off + r]? = some c ∧ c < n

theorem blockSupers_eq {V : Type} {B : Blocked V} {n : Nat} (hB : Reads n B) {sup : List Nat} (hl : sup.length = n)
    (hs : ∀ v, v < n → sup.getD v 0 < B.nodes) {j : Nat} (hj : j < B.nodes) :
    ∃ L : List Nat, ∀ (σ : Type) (out : Nat → σ → Res σ) (s : σ),
      blockSupers B sup j out (List.replicate B.nodes false) s =
        (forEach L out s >>= fun s => ok (List.replicate B.nodes false, s)) := by
  obtain ⟨nr, off, h1, h2, h3⟩ := hB j hj
  have key : ∀ (c k : Nat) (ip : List Bool) (l : List Nat), k + c = nr → Marks B.nodes ip l →
      ∃ ip' l', Marks B.nodes ip' (l ++ l') ∧ ∀ (σ : Type) (out : Nat → σ → Res σ) (s : σ),
        forN c k (fun r (st : List Bool × List Nat × σ) => do
          let c ← rd B.i (off + r)
          let row ← rd sup c
          let seen ← rd st.1 row
          if seen then ok st
          else do
            let ip ← wr st.1 row true
            if st.2.1.length < B.nodes then do
              let s ← out row st.2.2
              ok (ip, st.2.1 ++ [row], s)
            else ub) (ip, l, s) = (forEach l' out s >>= fun s => ok (ip', l ++ l', s)) := by
    intro c
    induction c with
    | zero =>
      intro k ip l _ hM
      exact ⟨ip, [], by simpa using hM, fun σ out s => by simp [forN, forEach]⟩
    | succ c ih =>
      intro k ip l hk hM
      obtain ⟨q, hq1, hq2⟩ := h3 k (by omega)
      have hrow := hs q hq2
      have r1 : rd B.i (off + k) = ok q := by unfold rd; rw [hq1]
      have r2 : rd sup q = ok (sup.getD q 0) := rd_getD 0 (by omega)
      have r3 : rd ip (sup.getD q 0) = ok (ip.getD (sup.getD q 0) false) := rd_getD false (by rw [hM.1]; exact hrow)
      by_cases hseen : ip.getD (sup.getD q 0) false = true
      · obtain ⟨ip', l', hM', he⟩ := ih (k + 1) ip l (by omega) hM
        refine ⟨ip', l', hM', ?_⟩
        intro σ out s
        rw [← he σ out s]
        simp only [forN, r1, r2, r3, ok_bind, hseen, if_true]
      · have hrl : sup.getD q 0 ∉ l := fun h => hseen ((hM.2.1 _ hrow).2 h)
        have hlen := length_lt_of_nodup hM.2.2.1 hM.2.2.2 hrow hrl
        have hM2 : Marks B.nodes (ip.set (sup.getD q 0) true) (l ++ [sup.getD q 0]) := by
          obtain ⟨m1, m2, m3, m4⟩ := hM
          refine ⟨by simp [m1], ?_, ?_, ?_⟩
          · intro x hx
            rw [getD_set, List.mem_append, List.mem_singleton]
            by_cases hxr : sup.getD q 0 = x
            · rw [if_pos ⟨hxr, by omega⟩]; exact ⟨fun _ => .inr hxr.symm, fun _ => rfl⟩
            · rw [if_neg (fun h => hxr h.1), m2 x hx]
              constructor
              · exact .inl
              · rintro (h | h)
                · exact h
                · exact absurd h.symm hxr
          · refine List.Nodup.append m3 (List.nodup_singleton _) ?_
            intro x hx hxr
            rw [List.mem_singleton] at hxr
            subst hxr; exact hrl hx
          · intro x hx
            rcases List.mem_append.1 hx with h | h
            · exact m4 x h
            · rw [List.mem_singleton] at h; omega
        obtain ⟨ip', l', hM', he⟩ := ih (k + 1) _ _ (by omega) hM2
        refine ⟨ip', sup.getD q 0 :: l', by simpa using hM', ?_⟩
        intro σ out s
        simp only [forN, r1, r2, r3, ok_bind, hseen, forEach, Bool.false_eq_true, if_false]
        rw [wr_eq (by rw [hM.1]; exact hrow), ok_bind, if_pos hlen]
        cases ho : out (sup.getD q 0) s with
        | ok s' =>
          simp only [ok_bind]
          rw [he σ out s']
          simp
        | ub => rfl
        | exn => rfl
        | nofuel => rfl
  obtain ⟨ip', l', hM', he⟩ := key nr 0 _ [] (by omega) (Marks.init B.nodes)
  refine ⟨l', ?_⟩
  intro σ out s
  unfold blockSupers
  have r1 : rd B.nrows j = ok nr := by unfold rd; rw [h1]
  have r2 : rd B.p j = ok off := by unfold rd; rw [h2]
  rw [r1, ok_bind, r2, ok_bind]
  unfold forRange
  rw [Nat.sub_zero, he σ out s]
  cases forEach l' out s with
  | ok s' =>
    simp only [ok_bind, List.nil_append]
    rw [List.nil_append] at hM'
    rw [clear_eq hM', ok_bind]
  | ub => rfl
  | exn => rfl
  | nofuel => rfl

theorem compress_ub {V : Type} {B : Blocked V} {n : Nat} (hB : Reads n B) (hp : PtrOk B.super B.nodes n)
    (hn : 0 < B.nodes) : compress n B = ub := by
  obtain ⟨sup, hsup, hl, hs⟩ := wp_iff.1 (supers_wp hp)
  have hex : ∃ L : Nat → List Nat, ∀ j, j < B.nodes → ∀ (σ : Type) (out : Nat → σ → Res σ) (s : σ),
      blockSupers B sup j out (List.replicate B.nodes false) s =
        (forEach (L j) out s >>= fun s => ok (List.replicate B.nodes false, s)) := by
    refine ⟨fun j => if h : j < B.nodes then (blockSupers_eq hB hl hs h).choose else [], ?_⟩
    intro j hj
    have := (blockSupers_eq hB hl hs hj).choose_spec
    simpa [hj] using this
  obtain ⟨L, hL⟩ := hex
  have hcount : ∀ (l : List Nat) (c : Nat), forEach l (fun _ (c : Nat) => ok (c + 1)) c = ok (c + l.length) := by
    intro l
    induction l with
    | nil => intro c; rfl
    | cons a l ih =>
      intro c
      simp only [forEach, ok_bind]
      rw [ih]; congr 1; simp; omega
  let tot : Nat → Nat := fun k => ((List.range k).map (fun j => (L j).length)).sum
  have htot : ∀ k, tot (k + 1) = tot k + (L k).length := by
    intro k; simp [tot, List.range_succ]
  have h1 : wp (forRange 0 B.nodes (fun j (st : List Bool × Nat) =>
      blockSupers B sup j (fun _ c => ok (c + 1)) st.1 st.2) (List.replicate B.nodes false, 0))
      (fun st => st = (List.replicate B.nodes false, tot B.nodes)) := by
    refine forRange_wp (fun k (st : List Bool × Nat) => st = (List.replicate B.nodes false, tot k)) (by omega) rfl ?_
    rintro k st _ hk rfl
    dsimp only
    rw [hL k hk, hcount, ok_bind, wp_ok, htot]
  obtain ⟨st, h2, rfl⟩ := wp_iff.1 h1
  have key : wpu (compress n B) (fun _ => False) := by
    unfold compress
    rw [hsup, ok_bind, h2, ok_bind]
    dsimp only
    refine wpu_bind (wpu_mono (wpu_forN (fun k (o : List Bool × List Nat × List Nat × Nat) =>
      o.1 = List.replicate B.nodes false ∧ o.2.2.1.length = tot B.nodes ∧ o.2.2.2 = tot k + k ∧
      o.2.2.2 ≤ tot B.nodes) B.nodes _ 0 _ (by omega) ⟨rfl, by simp, rfl, by simp⟩ ?_) ?_)
    · rintro k ⟨ip, ap, ai, i⟩ _ hk ⟨a1, a2, a3, a4⟩
      dsimp only at a1 a2 a3 a4 ⊢
      subst a1
      refine wpu_bind (wpu_rd ?_)
      intro e _
      refine wpu_bind (wpu_wr ?_)
      intro _
      rw [hL k hk]
      refine wpu_bind (wpu_bind (wpu_mono (wpu_forEach
        (fun q (t : List Nat × List Nat × Nat) => t.2.1.length = tot B.nodes ∧ t.2.2 = i + q ∧
          t.2.2 ≤ tot B.nodes) (L k) 0 _ ⟨a2, rfl, a4⟩ ?_) ?_))
      · rintro a q ⟨tp, ti, tc⟩ ⟨b1, b2, b3⟩
        dsimp only at b1 b2 b3 ⊢
        refine wpu_bind (wpu_rd ?_)
        intro c _
        refine wpu_bind (wpu_wr ?_)
        intro _
        refine wpu_bind (wpu_wr ?_)
        intro hlt
        rw [wpu_ok]
        exact ⟨by simp [b1], by dsimp only; omega, by dsimp only; omega⟩
      · rintro ⟨tp, ti, tc⟩ ⟨b1, b2, b3⟩
        dsimp only at b1 b2 b3 ⊢
        rw [wpu_ok]
        refine wpu_bind (wpu_wr ?_)
        intro hlt
        dsimp only at hlt
        refine wpu_bind (wpu_rd ?_)
        intro c _
        refine wpu_bind (wpu_wr ?_)
        intro _
        rw [wpu_ok]
        refine ⟨rfl, by simp [b1], ?_, by dsimp only; omega⟩
        dsimp only
        rw [htot]; omega
    · rintro o ⟨a1, a2, a3, a4⟩
      omega
  cases hc : compress n B with
  | ub => rfl
  | ok a => rw [hc] at key; exact key.elim
  | exn => rw [hc] at key; exact key.elim
  | nofuel => rw [hc] at key; exact key.elim

end Verif.Bcsc
