import Verif.Proof.Ic0

/-! # Effect of one column of the incomplete Cholesky kernels -/

namespace Verif.Ic0
open Res

variable {V : Type} {a : Mat V}

theorem reduce1_some {A : IcArith V} {l : Mat V} {i j r : Nat} {y z v : V} (h1 : l.ent i j = some y)
    (h2 : l.ent i r = some z) : l.reduce1 A j r v i = A.upd v y z := by
  unfold Mat.reduce1
  rw [h1, h2]

theorem reduce1_left {A : IcArith V} {l : Mat V} {i j r : Nat} {v : V} (h1 : l.ent i j = none) :
    l.reduce1 A j r v i = v := by
  unfold Mat.reduce1
  rw [h1]

theorem reduce1_right {A : IcArith V} {l : Mat V} {i j r : Nat} {v : V} (h1 : l.ent i r = none) :
    l.reduce1 A j r v i = v := by
  unfold Mat.reduce1
  rw [h1]
  cases l.ent i j <;> rfl

theorem reduce1_congr {A : IcArith V} {l l' : Mat V} {i : Nat} (h : ∀ r, l.ent i r = l'.ent i r) (j r : Nat) (v : V) :
    l.reduce1 A j r v i = l'.reduce1 A j r v i := by
  unfold Mat.reduce1
  rw [h, h]

/-- Effect of column `i`: it is finished, and its products are subtracted in the other columns. -/
structure ColSpec (A : IcArith V) (a : Mat V) (i : Nat) (x x' : List V) : Prop where
  len : x'.length = x.length
  dg : ∀ v, x[a.pat.ptr i]? = some v → x'[a.pat.ptr i]? = some (A.dv v (A.root v))
  off : ∀ m, a.pat.ptr i < m → m < a.pat.ptr (i + 1) → ∀ v w, x[m]? = some v →
    x'[a.pat.ptr i]? = some w → x'[m]? = some (A.dv v w)
  other : ∀ j k, j < a.n → j ≠ i → a.pat.ptr j ≤ k → k < a.pat.ptr (j + 1) → ∀ v, x[k]? = some v →
    x'[k]? = some ((a.withX x').reduce1 A j (a.pat.idx k) v i)
  tail : ∀ k, a.pat.ptr a.n ≤ k → x'[k]? = x[k]?

theorem rd_some {l : List V} {k : Nat} {v : V} (h : l[k]? = some v) : rd l k = ok v := by
  unfold rd
  rw [h]

theorem pivot_wp (A : IcArith V) {x : List V} {d : Nat} {v : V} (h : x[d]? = some v) :
    pivot A d x = ok (x.set d (A.dv v (A.root v))) := by
  have hd : d < x.length := (List.getElem?_eq_some_iff.1 h).1
  unfold pivot
  rw [rd_some h, ok_bind, ok_bind, wr_eq hd]

theorem scale_wp (A : IcArith V) {x : List V} {d m : Nat} {v w : V} (h : x[m]? = some v) (h2 : x[d]? = some w) :
    scale A d m x = ok (x.set m (A.dv v w)) := by
  have hd : m < x.length := (List.getElem?_eq_some_iff.1 h).1
  unfold scale
  rw [rd_some h, ok_bind, rd_some h2, ok_bind, wr_eq hd]

theorem subtract_wp (A : IcArith V) {x : List V} {k m l : Nat} {v y z : V} (h : x[k]? = some v) (h2 : x[m]? = some y)
    (h3 : x[l]? = some z) : subtract A m k l x = ok (x.set k (A.upd v y z)) := by
  have hd : k < x.length := (List.getElem?_eq_some_iff.1 h).1
  unfold subtract
  rw [rd_some h2, ok_bind, rd_some h3, ok_bind, rd_some h, ok_bind, wr_eq hd]

theorem scaleLoop_wp (A : IcArith V) {x : List V} {d e : Nat} (hde : d < e) (he : e ≤ x.length) {w : V}
    (hw : x[d]? = some w) :
    wp (forRange (d + 1) e (scale A d) x) (fun y => y.length = x.length ∧
      (∀ q, ¬ (d < q ∧ q < e) → y[q]? = x[q]?) ∧
      ∀ q, d < q → q < e → ∀ v, x[q]? = some v → y[q]? = some (A.dv v w)) := by
  refine forRange_wp' (fun m y => y.length = x.length ∧
      (∀ q, ¬ (d < q ∧ q < m) → y[q]? = x[q]?) ∧
      ∀ q, d < q → q < m → ∀ v, x[q]? = some v → y[q]? = some (A.dv v w)) (by omega)
    ⟨rfl, fun _ _ => rfl, fun q h1 h2 => by omega⟩ ?_ (fun y h => h)
  rintro m y h1 h2 ⟨g1, g2, g3⟩
  have hmx : m < x.length := by omega
  have hm : y[m]? = some x[m] := by rw [g2 m (by omega), List.getElem?_eq_getElem hmx]
  have hd : y[d]? = some w := by rw [g2 d (by omega), hw]
  rw [scale_wp A hm hd, wp_ok]
  refine ⟨by simp [g1], ?_, ?_⟩
  · intro q hq
    rw [List.getElem?_set_ne (by omega)]
    exact g2 q (by omega)
  · intro q hq1 hq2 v hv
    by_cases hqm : q = m
    · subst hqm
      rw [List.getElem?_set_self (by omega)]
      rw [List.getElem?_eq_getElem hmx] at hv
      cases hv
      rfl
    · rw [List.getElem?_set_ne (by omega)]
      exact g3 q hq1 (by omega) v hv

/-- The loop over one target column. -/
theorem targetLoop_wp (A : IcArith V) (hT : Tri a.pat) {i m : Nat} (hi : i < a.n) (hm1 : a.pat.ptr i < m)
    (hm2 : m < a.pat.ptr (i + 1)) {xs y0 : List V} (hx : a.pat.ptr a.n ≤ xs.length) (hl : y0.length = xs.length)
    (hi0 : ∀ q, a.pat.ptr i ≤ q → q < a.pat.ptr (i + 1) → y0[q]? = xs[q]?) :
    wp (forRange (a.pat.ptr (a.pat.idx m)) (a.pat.ptr (a.pat.idx m + 1)) (fun k x =>
          onHit (found a.pat m (a.pat.ptr (i + 1)) k) (subtract A m k) x) y0) (fun y => y.length = xs.length ∧
      (∀ q, ¬ (a.pat.ptr (a.pat.idx m) ≤ q ∧ q < a.pat.ptr (a.pat.idx m + 1)) → y[q]? = y0[q]?) ∧
      ∀ q, a.pat.ptr (a.pat.idx m) ≤ q → q < a.pat.ptr (a.pat.idx m + 1) → ∀ v, y0[q]? = some v →
        y[q]? = some ((a.withX xs).reduce1 A (a.pat.idx m) (a.pat.idx q) v i)) := by
  have hdep := hT.dep_idx hi hm1 hm2
  have hj : a.pat.idx m < a.n := (hT.wf.dep_lt hdep).2
  have hij : i ≠ a.pat.idx m := hdep.2.2
  refine forRange_wp' (fun k y => y.length = xs.length ∧
      (∀ q, ¬ (a.pat.ptr (a.pat.idx m) ≤ q ∧ q < k) → y[q]? = y0[q]?) ∧
      ∀ q, a.pat.ptr (a.pat.idx m) ≤ q → q < k → ∀ v, y0[q]? = some v →
        y[q]? = some ((a.withX xs).reduce1 A (a.pat.idx m) (a.pat.idx q) v i))
    (hT.wf.mono _ hj) ⟨hl, fun _ _ => rfl, fun q h1 h2 => by omega⟩ ?_ (fun y h => h)
  rintro k y h1 h2 ⟨g1, g2, g3⟩
  have hkn : k < a.pat.ptr a.n := hT.lt_total hj h2
  have hky : k < y.length := by omega
  have hkv : y[k]? = y0[k]? := g2 k (by omega)
  have hk0 : k < y0.length := by omega
  cases hf : found a.pat m (a.pat.ptr (i + 1)) k with
  | none =>
    simp only [onHit, wp_ok]
    refine ⟨g1, fun q hq => g2 q (by omega), ?_⟩
    intro q hq1 hq2 v hv
    by_cases hqk : q = k
    · subst hqk
      rw [hkv, hv, reduce1_right]
      apply ent_none hT hx hi
      intro hmem
      obtain ⟨q', b1, b2, b3⟩ := (hT.wf.mem_col hi).1 hmem
      by_cases hq' : q' < m
      · have c1 := hT.idx_lt_idx hi b1 hq' hm2
        have c2 := hT.le_idx hj h1 h2
        omega
      · exact found_none hf q' (by omega) b2 b3
    · exact g3 q hq1 (by omega) v hv
  | some l =>
    obtain ⟨b1, b2, b3⟩ := found_some hf
    have hcol : ∀ q, a.pat.ptr i ≤ q → q < a.pat.ptr (i + 1) → y[q]? = xs[q]? := by
      intro q c1 c2
      rw [g2 q, hi0 q c1 c2]
      intro hq
      exact hij (hT.col_unique hi hj c1 c2 hq.1 (by omega))
    have hmx : m < xs.length := Nat.lt_of_lt_of_le (hT.lt_total hi hm2) hx
    have hlx : l < xs.length := Nat.lt_of_lt_of_le (hT.lt_total hi b2) hx
    simp only [onHit]
    rw [subtract_wp A (v := y0[k]) (y := xs[m]) (z := xs[l]) (by rw [hkv, List.getElem?_eq_getElem hk0])
      (by rw [hcol m (by omega) hm2, List.getElem?_eq_getElem hmx])
      (by rw [hcol l (by omega) b2, List.getElem?_eq_getElem hlx]), wp_ok]
    refine ⟨by simp [g1], ?_, ?_⟩
    · intro q hq
      rw [List.getElem?_set_ne (by omega)]
      exact g2 q (by omega)
    · intro q hq1 hq2 v hv
      by_cases hqk : q = k
      · subst hqk
        rw [List.getElem?_set_self hky]
        rw [List.getElem?_eq_getElem hk0] at hv
        cases hv
        rw [reduce1_some (y := xs[m]) (z := xs[l])]
        · rw [ent_pos hT hx hi (by omega) hm2, List.getElem?_eq_getElem hmx]
        · rw [← b3, ent_pos hT hx hi (by omega) b2, List.getElem?_eq_getElem hlx]
      · rw [List.getElem?_set_ne (by omega)]
        exact g3 q hq1 (by omega) v hv

/-- One column. -/
theorem column_wp (A : IcArith V) (hT : Tri a.pat) {i : Nat} (hi : i < a.n) {x : List V}
    (hx : a.pat.ptr a.n ≤ x.length) : wp (column A a.p a.i i x) (ColSpec A a i x) := by
  have hlt := hT.lt_next hi
  have hn : a.pat.ptr (i + 1) ≤ a.pat.ptr a.n := hT.wf.mono_le (show i + 1 ≤ a.n by omega) (Nat.le_refl _)
  have := column_eq hT A hi x
  show wp (column A a.pat.p a.pat.i i x) _
  rw [this]
  have hdx : a.pat.ptr i < x.length := by omega
  rw [pivot_wp A (List.getElem?_eq_getElem hdx)]
  simp only [ok_bind, wp_bind]
  obtain ⟨w, hw⟩ : ∃ w, w = A.dv x[a.pat.ptr i] (A.root x[a.pat.ptr i]) := ⟨_, rfl⟩
  rw [← hw]
  refine wp_mono (scaleLoop_wp A hlt (by simp; omega) (w := w) (List.getElem?_set_self hdx)) ?_
  rintro xs ⟨s1, s2, s3⟩
  have hxl : xs.length = x.length := by simpa using s1
  have hxs : a.pat.ptr a.n ≤ xs.length := by omega
  have xsd : xs[a.pat.ptr i]? = some w := by
    rw [s2 _ (by omega), List.getElem?_set_self hdx]
  have xso : ∀ q, a.pat.ptr i < q → q < a.pat.ptr (i + 1) → ∀ v, x[q]? = some v → xs[q]? = some (A.dv v w) := by
    intro q h1 h2 v hv
    exact s3 q h1 h2 v (by rw [List.getElem?_set_ne (by omega), hv])
  have xsx : ∀ q, ¬ (a.pat.ptr i ≤ q ∧ q < a.pat.ptr (i + 1)) → xs[q]? = x[q]? := by
    intro q hq
    rw [s2 q (by omega), List.getElem?_set_ne (by omega)]
  refine forRange_wp' (fun m y => y.length = xs.length ∧
      (∀ q, a.pat.ptr i ≤ q → q < a.pat.ptr (i + 1) → y[q]? = xs[q]?) ∧
      (∀ j k, j < a.n → j ≠ i → a.pat.ptr j ≤ k → k < a.pat.ptr (j + 1) → ∀ v, xs[k]? = some v →
        ((∃ m', a.pat.ptr i < m' ∧ m' < m ∧ a.pat.idx m' = j) →
          y[k]? = some ((a.withX xs).reduce1 A j (a.pat.idx k) v i)) ∧
        ((¬ ∃ m', a.pat.ptr i < m' ∧ m' < m ∧ a.pat.idx m' = j) → y[k]? = some v)) ∧
      ∀ k, a.pat.ptr a.n ≤ k → y[k]? = xs[k]?) hlt
    ⟨rfl, fun _ _ _ => rfl, ?_, fun _ _ => rfl⟩ ?_ ?_
  · intro j k _ _ _ _ v hv
    refine ⟨?_, fun _ => hv⟩
    rintro ⟨m', h1, h2, _⟩
    omega
  · rintro m y h1 h2 ⟨g1, g2, g3, g4⟩
    have hdep := hT.dep_idx hi (show a.pat.ptr i < m by omega) h2
    have hj : a.pat.idx m < a.n := (hT.wf.dep_lt hdep).2
    have hij : i ≠ a.pat.idx m := hdep.2.2
    refine wp_mono (targetLoop_wp A hT hi (show a.pat.ptr i < m by omega) h2 hxs g1 g2) ?_
    rintro z ⟨t1, t2, t3⟩
    refine ⟨t1, ?_, ?_, ?_⟩
    · intro q c1 c2
      rw [t2 q, g2 q c1 c2]
      intro hq
      exact hij (hT.col_unique hi hj c1 c2 hq.1 hq.2)
    · intro j k b1 b2 b3 b4 v hv
      obtain ⟨e1, e2⟩ := g3 j k b1 b2 b3 b4 v hv
      by_cases hjm : j = a.pat.idx m
      · subst hjm
        have hno : ¬ ∃ m', a.pat.ptr i < m' ∧ m' < m ∧ a.pat.idx m' = a.pat.idx m := by
          rintro ⟨m', c1, c2, c3⟩
          have := hT.idx_lt_idx hi (show a.pat.ptr i ≤ m' by omega) c2 h2
          omega
        refine ⟨fun _ => t3 k b3 b4 v (e2 hno), fun hc => ?_⟩
        exact absurd ⟨m, by omega, by omega, rfl⟩ hc
      · have hzk : z[k]? = y[k]? := by
          apply t2
          intro hq
          exact hjm (hT.col_unique b1 hj b3 b4 hq.1 hq.2)
        rw [hzk]
        have hiff : (∃ m', a.pat.ptr i < m' ∧ m' < m + 1 ∧ a.pat.idx m' = j) ↔
            ∃ m', a.pat.ptr i < m' ∧ m' < m ∧ a.pat.idx m' = j := by
          constructor
          · rintro ⟨m', c1, c2, c3⟩
            refine ⟨m', c1, ?_, c3⟩
            rcases Nat.lt_or_ge m' m with c4 | c4
            · exact c4
            · have : m' = m := by omega
              subst this
              exact absurd c3.symm hjm
          · rintro ⟨m', c1, c2, c3⟩
            exact ⟨m', c1, by omega, c3⟩
        rw [hiff]
        exact ⟨e1, e2⟩
    · intro k hk
      rw [t2 k, g4 k hk]
      intro hq
      have : k < a.pat.ptr a.n := hT.lt_total hj hq.2
      omega
  · rintro y ⟨g1, g2, g3, g4⟩
    have hyl : a.pat.ptr a.n ≤ y.length := by omega
    have hent : ∀ r, (a.withX y).ent i r = (a.withX xs).ent i r := ent_congr hT hyl hxs hi g2
    refine ⟨by omega, ?_, ?_, ?_, ?_⟩
    · intro v hv
      rw [g2 _ (Nat.le_refl _) hlt, xsd, hw]
      rw [List.getElem?_eq_getElem hdx] at hv
      cases hv
      rfl
    · intro m h1 h2 v w' hv hw'
      rw [g2 _ (Nat.le_refl _) hlt, xsd] at hw'
      cases hw'
      rw [g2 m (by omega) h2, xso m h1 h2 v hv]
    · intro j k b1 b2 b3 b4 v hv
      have hxk : xs[k]? = some v := by
        rw [xsx k, hv]
        intro hq
        exact b2 (hT.col_unique b1 hi b3 b4 hq.1 hq.2)
      obtain ⟨e1, e2⟩ := g3 j k b1 b2 b3 b4 v hxk
      rw [reduce1_congr hent]
      by_cases hex : ∃ m', a.pat.ptr i < m' ∧ m' < a.pat.ptr (i + 1) ∧ a.pat.idx m' = j
      · exact e1 hex
      · rw [e2 hex, reduce1_left]
        apply ent_none hT hxs hi
        intro hmem
        obtain ⟨q, c1, c2, c3⟩ := (hT.wf.mem_col hi).1 hmem
        rcases Nat.eq_or_lt_of_le c1 with c4 | c4
        · rw [← c4, hT.idx_diag hi] at c3
          exact b2 c3.symm
        · exact hex ⟨q, c4, c2, c3⟩
    · intro k hk
      rw [g4 k hk, xsx k (by omega)]

end Verif.Ic0
