import Verif.Proof.Ic0Column
import Mathlib.Data.List.Perm.Basic

/-! # Running the columns in an order that respects the dependences -/

namespace Verif.Ic0
open Res

variable {V : Type} {a : Mat V}

/-- All columns that a column depends on come earlier. -/
def Topo (g : Csc) (ord : List Nat) : Prop :=
  ∀ pre v post, ord = pre ++ v :: post → ∀ u, g.Dep u v → u ∈ pre

/-- The values after the columns `pre` were run, starting with the values `x0`. -/
structure Inv (A : IcArith V) (a : Mat V) (x0 : List V) (pre : List Nat) (x : List V) : Prop where
  len : x.length = x0.length
  tail : ∀ k, a.pat.ptr a.n ≤ k → x[k]? = x0[k]?
  todo : ∀ j k, j < a.n → j ∉ pre → a.pat.ptr j ≤ k → k < a.pat.ptr (j + 1) → ∀ v, x0[k]? = some v →
    x[k]? = some (pre.foldl ((a.withX x).reduce1 A j (a.pat.idx k)) v)
  diag : ∀ p j q, pre = p ++ j :: q → ∀ v, x0[a.pat.ptr j]? = some v →
    x[a.pat.ptr j]? = some (A.dv (p.foldl ((a.withX x).reduce1 A j j) v)
      (A.root (p.foldl ((a.withX x).reduce1 A j j) v)))
  below : ∀ p j q, pre = p ++ j :: q → ∀ k, a.pat.ptr j < k → k < a.pat.ptr (j + 1) → ∀ v w, x0[k]? = some v →
    x[a.pat.ptr j]? = some w → x[k]? = some (A.dv (p.foldl ((a.withX x).reduce1 A j (a.pat.idx k)) v) w)

theorem foldl_congr' {α β : Type} {f f' : β → α → β} {l : List α} (h : ∀ i ∈ l, ∀ v, f v i = f' v i) :
    ∀ v, l.foldl f v = l.foldl f' v := by
  induction l with
  | nil => intro v; rfl
  | cons i l ih =>
    intro v
    rw [List.foldl_cons, List.foldl_cons, h i (by simp), ih fun i hi => h i (by simp [hi])]

/-- One more column. -/
theorem Inv.step {A : IcArith V} (hT : Tri a.pat) {x0 : List V} (hx : a.pat.ptr a.n ≤ x0.length) {pre : List Nat}
    {c : Nat} (hc : c < a.n) (hpre : ∀ i ∈ pre, i < a.n) (hcp : c ∉ pre)
    (hno : ∀ i ∈ pre, ¬ a.pat.Dep c i) {x x' : List V} (hI : Inv A a x0 pre x)
    (hS : ColSpec A a c x x') : Inv A a x0 (pre ++ [c]) x' := by
  have hxl : a.pat.ptr a.n ≤ x.length := by rw [hI.len]; exact hx
  have hxl' : a.pat.ptr a.n ≤ x'.length := by rw [hS.len]; exact hxl
  have hsame : ∀ i ∈ pre, ∀ q, a.pat.ptr i ≤ q → q < a.pat.ptr (i + 1) → x'[q]? = x[q]? := by
    intro i hi q h1 h2
    have hin := hpre i hi
    have hic : i ≠ c := fun h => hcp (h ▸ hi)
    have hq : q < x.length := Nat.lt_of_lt_of_le (hT.lt_total hin h2) hxl
    rw [hS.other i q hin hic h1 h2 x[q] (List.getElem?_eq_getElem hq), List.getElem?_eq_getElem hq, reduce1_left]
    apply ent_none hT hxl' hc
    intro hm
    exact hno i hi ⟨hc, hm, Ne.symm hic⟩
  have hred : ∀ i ∈ pre, ∀ j r v, (a.withX x').reduce1 A j r v i = (a.withX x).reduce1 A j r v i := by
    intro i hi j r v
    exact reduce1_congr (fun r => ent_congr hT hxl' hxl (hpre i hi) (hsame i hi) r) j r v
  have hfold : ∀ l : List Nat, (∀ i ∈ l, i ∈ pre) → ∀ j r v,
      l.foldl ((a.withX x').reduce1 A j r) v = l.foldl ((a.withX x).reduce1 A j r) v := by
    intro l hl j r v
    exact foldl_congr' (fun i hi v => hred i (hl i hi) j r v) v
  have hself : ∀ i, i ∈ pre → i ∈ pre := fun _ h => h
  refine ⟨by rw [hS.len, hI.len], ?_, ?_, ?_, ?_⟩
  · intro k hk
    rw [hS.tail k hk, hI.tail k hk]
  · intro j k hj hjn h1 h2 v hv
    have hjp : j ∉ pre := fun h => hjn (by simp [h])
    have hjc : j ≠ c := fun h => hjn (by simp [h])
    rw [hS.other j k hj hjc h1 h2 _ (hI.todo j k hj hjp h1 h2 v hv), List.foldl_append, List.foldl_cons,
      List.foldl_nil, hfold pre hself]
  · intro p j q hpq v hv
    rcases List.eq_nil_or_concat q with rfl | ⟨q', z, rfl⟩
    · have : pre = p ∧ [c] = [j] := List.append_inj' hpq rfl
      obtain ⟨rfl, h2⟩ := this
      cases h2
      rw [hfold pre hself]
      have h0 := hI.todo c (a.pat.ptr c) hc hcp (Nat.le_refl _) (hT.lt_next hc) v hv
      rw [hT.idx_diag hc] at h0
      exact hS.dg _ h0
    · have : pre = p ++ j :: q' ∧ [c] = [z] := by
        rw [List.concat_eq_append, ← List.cons_append, ← List.append_assoc] at hpq
        exact List.append_inj' hpq rfl
      obtain ⟨h1, _⟩ := this
      have hj : j ∈ pre := by rw [h1]; simp
      rw [hfold p (fun i hi => by rw [h1]; simp [hi]), hsame j hj _ (Nat.le_refl _) (hT.lt_next (hpre j hj))]
      exact hI.diag p j q' h1 v hv
  · intro p j q hpq k hk1 hk2 v w hv hw
    rcases List.eq_nil_or_concat q with rfl | ⟨q', z, rfl⟩
    · have : pre = p ∧ [c] = [j] := List.append_inj' hpq rfl
      obtain ⟨rfl, h2⟩ := this
      cases h2
      rw [hfold pre hself]
      have h0 := hI.todo c k hc hcp (by omega) hk2 v hv
      exact hS.off k hk1 hk2 _ w h0 hw
    · have : pre = p ++ j :: q' ∧ [c] = [z] := by
        rw [List.concat_eq_append, ← List.cons_append, ← List.append_assoc] at hpq
        exact List.append_inj' hpq rfl
      obtain ⟨h1, _⟩ := this
      have hj : j ∈ pre := by rw [h1]; simp
      rw [hfold p (fun i hi => by rw [h1]; simp [hi]), hsame j hj k (by omega) hk2]
      refine hI.below p j q' h1 k hk1 hk2 v w hv ?_
      rw [← hsame j hj _ (Nat.le_refl _) (hT.lt_next (hpre j hj))]
      exact hw

/-- All columns of an order. -/
theorem order_wp (A : IcArith V) (hT : Tri a.pat) {x0 : List V} (hx : a.pat.ptr a.n ≤ x0.length) {ord : List Nat}
    (hnd : ord.Nodup) (hlt : ∀ c ∈ ord, c < a.n) (ht : Topo a.pat ord) :
    wp (forEach ord (column A a.p a.i) x0) (Inv A a x0 ord) := by
  refine forEach_wp (Inv A a x0) ord [] x0 ⟨rfl, fun _ _ => rfl, ?_, ?_, ?_⟩ ?_
  · intro j k _ _ _ _ v hv
    exact hv
  · intro p j q h
    simp at h
  · intro p j q h
    simp at h
  · intro p c q x hpq hI
    have hord : ord = p ++ c :: q := by simpa using hpq
    have hc : c < a.n := hlt c (by rw [hord]; simp)
    have hcp : c ∉ p := by
      rw [hord, List.nodup_append] at hnd
      intro h
      exact hnd.2.2 c h c (by simp) rfl
    refine wp_mono (column_wp A hT hc (by rw [hI.len]; exact hx)) ?_
    intro x' hS
    refine Inv.step hT hx hc (fun i hi => hlt i (by rw [hord]; simp [hi])) hcp ?_ hI hS
    intro i hi hd
    obtain ⟨p1, p2, hp⟩ := List.append_of_mem hi
    have := ht p1 i (p2 ++ c :: q) (by rw [hord, hp]; simp) c hd
    exact hcp (by rw [hp]; simp [this])

/-- Subtractions can be exchanged. -/
def _root_.Verif.IcArith.Comm (A : IcArith V) : Prop :=
  ∀ v y z y' z', A.upd (A.upd v y z) y' z' = A.upd (A.upd v y' z') y z

theorem reduce1_comm {A : IcArith V} (hA : A.Comm) (l : Mat V) (j r : Nat) (v : V) (i i' : Nat) :
    l.reduce1 A j r (l.reduce1 A j r v i) i' = l.reduce1 A j r (l.reduce1 A j r v i') i := by
  unfold Mat.reduce1
  cases l.ent i j <;> cases l.ent i r <;> cases l.ent i' j <;> cases l.ent i' r <;> simp [hA _ _ _ _ _]

theorem foldl_filter_id {α β : Type} {f : β → α → β} (P : α → Bool) {l : List α} (h : ∀ i ∈ l, P i = false → ∀ v, f v i = v) :
    ∀ v, l.foldl f v = (l.filter P).foldl f v := by
  induction l with
  | nil => intro v; rfl
  | cons i l ih =>
    intro v
    have ih' := ih fun i hi => h i (by simp [hi])
    rw [List.foldl_cons]
    cases hP : P i with
    | true => rw [List.filter_cons_of_pos hP, List.foldl_cons, ih']
    | false => rw [List.filter_cons_of_neg (by simp [hP]), h i (by simp) hP, ih']

/-- The columns before `j` in a complete order give the same reduction as the columns `0..j-1`. -/
theorem foldl_before {A : IcArith V} (hT : Tri a.pat) {x : List V} (hx : a.pat.ptr a.n ≤ x.length) {ord p q : List Nat}
    {j : Nat} (hord : ord = p ++ j :: q) (hnd : ord.Nodup) (hlt : ∀ c ∈ ord, c < a.n) (ht : Topo a.pat ord)
    (hA : A.Comm ∨ ord = List.range a.n) (r : Nat) (v : V) :
    p.foldl ((a.withX x).reduce1 A j r) v = (a.withX x).reduced A j r v := by
  rcases hA with hA | hA
  · have hj : j < a.n := hlt j (by rw [hord]; simp)
    obtain ⟨P, hP⟩ : ∃ P : Nat → Bool, P = fun i => decide (j ∈ a.pat.col i ∧ i ≠ j) := ⟨_, rfl⟩
    have hid : ∀ i, i < a.n → i ≠ j → P i = false → ∀ v, (a.withX x).reduce1 A j r v i = v := by
      intro i hi hij hPi v
      apply reduce1_left
      apply ent_none hT hx hi
      intro hm
      rw [hP] at hPi
      simp [hm, hij] at hPi
    have hjp : j ∉ p := by
      rw [hord, List.nodup_append] at hnd
      intro h
      exact hnd.2.2 j h j (by simp) rfl
    unfold Mat.reduced
    rw [foldl_filter_id P (l := p) (fun i hi => hid i (hlt i (by rw [hord]; simp [hi])) (fun h => hjp (h ▸ hi))),
      foldl_filter_id P (l := List.range j) (fun i hi => by
        rw [List.mem_range] at hi
        exact hid i (by omega) (by omega))]
    have hperm : (p.filter P).Perm ((List.range j).filter P) := by
      rw [List.perm_ext_iff_of_nodup]
      · intro i
        rw [List.mem_filter, List.mem_filter, List.mem_range]
        constructor
        · rintro ⟨h1, h2⟩
          refine ⟨?_, h2⟩
          rw [hP] at h2
          simp only [decide_eq_true_eq] at h2
          exact hT.dep_lt ⟨hlt i (by rw [hord]; simp [h1]), h2.1, h2.2⟩
        · rintro ⟨h1, h2⟩
          refine ⟨?_, h2⟩
          rw [hP] at h2
          simp only [decide_eq_true_eq] at h2
          have hin : i < a.n := by omega
          exact ht p j q hord i ⟨hin, h2.1, h2.2⟩
      · rw [hord, List.nodup_append] at hnd
        exact hnd.1.filter P
      · exact List.nodup_range.filter P
    exact hperm.foldl_eq' (fun i _ i' _ v => reduce1_comm hA _ _ _ _ _ _) v
  · unfold Mat.reduced
    rw [hA] at hord
    have hpl : p.length = j := by
      have h1 : (List.range a.n)[p.length]? = some j := by rw [hord]; simp
      rw [List.getElem?_eq_some_iff] at h1
      obtain ⟨_, h2⟩ := h1
      simpa using h2
    have : p = List.range j := by
      have h2 : (List.range a.n).take p.length = p := by rw [hord]; simp
      rw [← h2, List.take_range, hpl]
      congr 1
      have : j ∈ List.range a.n := by rw [hord]; simp
      rw [List.mem_range] at this
      omega
    rw [this]

/-- The values after all columns are those of the factor. -/
theorem Inv.isIC0 {A : IcArith V} (hT : Tri a.pat) (hx : a.pat.ptr a.n ≤ a.x.length) {ord : List Nat}
    (hperm : ord.Perm (List.range a.n)) (ht : Topo a.pat ord)
    (hA : A.Comm ∨ ord = List.range a.n) {x : List V} (hI : Inv A a a.x ord x) : a.IsIC0 A x := by
  have hnd : ord.Nodup := hperm.nodup_iff.2 List.nodup_range
  have hlt : ∀ c ∈ ord, c < a.n := fun c hc => List.mem_range.1 (hperm.mem_iff.1 hc)
  have hxl : a.pat.ptr a.n ≤ x.length := by rw [hI.len]; exact hx
  have ha : ∀ c r, a.ent c r = (a.withX a.x).ent c r := fun _ _ => rfl
  refine ⟨hI.len, ?_, ?_⟩
  · intro j v hj hv
    obtain ⟨p, q, hpq⟩ := List.append_of_mem (hperm.mem_iff.2 (List.mem_range.2 hj))
    rw [ha, ent_diag hT hx hj] at hv
    have := hI.diag p j q hpq v hv
    rw [foldl_before hT hxl hpq hnd hlt ht hA] at this
    show (a.withX x).ent j j = _
    rw [ent_diag hT hxl hj, this]
  · intro j r v hj hr hv
    obtain ⟨p, q, hpq⟩ := List.append_of_mem (hperm.mem_iff.2 (List.mem_range.2 hj))
    rw [ha, ent_iff hT hx hj] at hv
    obtain ⟨k, h1, h2, rfl, h4⟩ := hv
    have hk : a.pat.ptr j < k := by
      rcases Nat.eq_or_lt_of_le h1 with h | h
      · rw [← h, hT.idx_diag hj] at hr
        exact absurd rfl hr
      · exact h
    have hd : a.pat.ptr j < x.length := Nat.lt_of_lt_of_le (hT.lt_total hj (hT.lt_next hj)) hxl
    refine ⟨x[a.pat.ptr j], ?_, ?_⟩
    · rw [ent_diag hT hxl hj, List.getElem?_eq_getElem hd]
    · have := hI.below p j q hpq k hk h2 v _ h4 (List.getElem?_eq_getElem hd)
      rw [foldl_before hT hxl hpq hnd hlt ht hA] at this
      rw [ent_pos hT hxl hj h1 h2, this]

/-- There is only one factor. -/
theorem isIC0_unique {A : IcArith V} (hT : Tri a.pat) (hx : a.pat.ptr a.n ≤ a.x.length) {x y : List V}
    (h : a.IsIC0 A x) (h' : a.IsIC0 A y) : ∀ k, k < a.pat.ptr a.n → x[k]? = y[k]? := by
  have hxl : a.pat.ptr a.n ≤ x.length := by rw [h.len]; exact hx
  have hyl : a.pat.ptr a.n ≤ y.length := by rw [h'.len]; exact hx
  have key : ∀ j, j < a.n → ∀ k, a.pat.ptr j ≤ k → k < a.pat.ptr (j + 1) → x[k]? = y[k]? := by
    intro j
    induction j using Nat.strong_induction_on with
    | _ j ih =>
      intro hj
      have hred : ∀ r v, (a.withX x).reduced A j r v = (a.withX y).reduced A j r v := by
        intro r v
        unfold Mat.reduced
        refine foldl_congr' (fun i hi v => ?_) v
        rw [List.mem_range] at hi
        exact reduce1_congr (fun r => ent_congr hT hxl hyl (by omega) (ih i hi (by omega)) r) _ _ _
      have hdx : a.pat.ptr j < a.x.length := Nat.lt_of_lt_of_le (hT.lt_total hj (hT.lt_next hj)) hx
      have hv : a.ent j j = some a.x[a.pat.ptr j] := by
        show (a.withX a.x).ent j j = _
        rw [ent_diag hT hx hj, List.getElem?_eq_getElem hdx]
      have hdiag : x[a.pat.ptr j]? = y[a.pat.ptr j]? := by
        rw [← ent_diag hT hxl hj, ← ent_diag hT hyl hj, h.diag j _ hj hv, h'.diag j _ hj hv, hred]
      intro k h1 h2
      rcases Nat.eq_or_lt_of_le h1 with h3 | h3
      · rw [← h3]; exact hdiag
      · have hk : k < a.x.length := Nat.lt_of_lt_of_le (hT.lt_total hj h2) hx
        have hvk : a.ent j (a.pat.idx k) = some a.x[k] := by
          show (a.withX a.x).ent j _ = _
          rw [ent_pos hT hx hj h1 h2, List.getElem?_eq_getElem hk]
        have hne : a.pat.idx k ≠ j := by
          have := hT.idx_lt_idx hj (Nat.le_refl _) h3 h2
          rw [hT.idx_diag hj] at this
          omega
        obtain ⟨d, e1, e2⟩ := h.below j _ _ hj hne hvk
        obtain ⟨d', e1', e2'⟩ := h'.below j _ _ hj hne hvk
        have hdd : d = d' := by
          rw [ent_diag hT hxl hj, hdiag, ← ent_diag hT hyl hj, e1'] at e1
          exact (Option.some.inj e1).symm
        rw [← ent_pos hT hxl hj h1 h2, ← ent_pos hT hyl hj h1 h2, e2, e2', hred, hdd]
  intro k hk
  obtain ⟨j, h1, h2, h3⟩ := hT.exists_col hk
  exact key j h1 k h2 h3

theorem topo_range {g : Csc} (hT : Tri g) : Topo g (List.range g.n) := by
  intro pre v post hord u hd
  have h1 := hT.dep_lt hd
  have hpl : pre.length = v := by
    have h1 : (List.range g.n)[pre.length]? = some v := by rw [hord]; simp
    rw [List.getElem?_eq_some_iff] at h1
    obtain ⟨_, h2⟩ := h1
    simpa using h2
  have h2 : (List.range g.n).take pre.length = pre := by rw [hord]; simp
  rw [← h2, List.take_range, List.mem_range, hpl]
  have := hd.1
  omega

/-- Two complete orders that respect the dependences give the same values. -/
theorem order_eq {A : IcArith V} (hA : A.Comm) (hT : Tri a.pat) (hx : a.pat.ptr a.n ≤ a.x.length) {ord ord' : List Nat}
    (hp : ord.Perm (List.range a.n)) (ht : Topo a.pat ord) (hp' : ord'.Perm (List.range a.n)) (ht' : Topo a.pat ord')
    {x y : List V} (h : Inv A a a.x ord x) (h' : Inv A a a.x ord' y) : x = y := by
  have e := h.isIC0 hT hx hp ht (.inl hA)
  have e' := h'.isIC0 hT hx hp' ht' (.inl hA)
  apply List.ext_getElem?
  intro k
  by_cases hk : k < a.pat.ptr a.n
  · exact isIC0_unique hT hx e e' k hk
  · rw [h.tail k (by omega), h'.tail k (by omega)]

end Verif.Ic0
