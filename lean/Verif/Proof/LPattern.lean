import Verif.Proof.Ereach

/-! # `build_L_pattern_from_col_counts` -/

namespace Verif
open Res Relation

variable {E : Nat → Nat → Prop} {n : Nat}

theorem mem_factorCol {j u : Nat} : u ∈ factorCol E n j ↔ u < n ∧ (u = j ∨ Fill E u j) := by
  simp [factorCol]

theorem mem_factorRow {k j : Nat} : j ∈ factorRow E n k ↔ j < n ∧ (j = k ∨ Fill E k j) := by
  simp [factorRow]

theorem factorCol_sorted (E : Nat → Nat → Prop) (n j : Nat) :
    (factorCol E n j).Pairwise (· < ·) := List.Pairwise.filter _ List.pairwise_lt_range

theorem factorCol_succ_pos {r j : Nat} (h : r = j ∨ Fill E r j) :
    factorCol E (r + 1) j = factorCol E r j ++ [r] := by
  unfold factorCol
  rw [List.range_succ, List.filter_append, List.filter_cons, if_pos (by simpa using h),
    List.filter_nil]

theorem factorCol_succ_neg {r j : Nat} (h : ¬ (r = j ∨ Fill E r j)) :
    factorCol E (r + 1) j = factorCol E r j := by
  unfold factorCol
  rw [List.range_succ, List.filter_append, List.filter_cons, if_neg (by simpa using h),
    List.filter_nil, List.append_nil]

theorem factorCol_mono {r m j : Nat} (h : r ≤ m) :
    (factorCol E r j).length ≤ (factorCol E m j).length := by
  induction m with
  | zero => obtain rfl : r = 0 := by omega
            exact le_refl _
  | succ m ih =>
    by_cases e : r = m + 1
    · subst e; exact le_refl _
    · have := ih (by omega)
      by_cases hm : m = j ∨ Fill E m j
      · rw [factorCol_succ_pos hm]; simp; omega
      · rw [factorCol_succ_neg hm]; exact this

theorem factorCol_self (r : Nat) : factorCol E r r = [] := by
  rw [List.eq_nil_iff_forall_not_mem]
  intro u hu
  obtain ⟨h1, h2⟩ := mem_factorCol.1 hu
  rcases h2 with h2 | h2
  · omega
  · have := h2.lt; omega

namespace LFactor

/-- The column pointer of given counts. -/
structure Ptr (n : Nat) (cc lp : List Nat) : Prop where
  len : lp.length = n + 1
  zero : lp.getD 0 0 = 0
  succ : ∀ j, j < n → lp.getD (j + 1) 0 = lp.getD j 0 + cc.getD j 0

theorem Ptr.next {cc lp : List Nat} (h : Ptr n cc lp) {j j' : Nat} (hj : j < j') (hn : j' ≤ n) :
    lp.getD j 0 + cc.getD j 0 ≤ lp.getD j' 0 := by
  induction j' with
  | zero => omega
  | succ m ih =>
    rw [h.succ m (by omega)]
    by_cases e : j = m
    · subst e; exact le_refl _
    · have := ih (by omega) (by omega); omega

theorem ptr_wp {cc : List Nat} (hc : n ≤ cc.length) :
    ∃ lp, forRange 1 (n + 1) (fun l lp => do
      let a ← rd lp (l - 1)
      let c ← rd cc (l - 1)
      wr lp l (a + c)) (List.replicate (n + 1) 0) = ok lp ∧ Ptr n cc lp := by
  have := forRange_wp (I := fun l lp => lp.length = n + 1 ∧ lp.getD 0 0 = 0 ∧
      ∀ j, j + 1 < l → lp.getD (j + 1) 0 = lp.getD j 0 + cc.getD j 0) (lo := 1) (hi := n + 1)
    (f := fun l lp => do
      let a ← rd lp (l - 1)
      let c ← rd cc (l - 1)
      wr lp l (a + c)) (s := List.replicate (n + 1) 0) (by omega) ?_ ?_
  · obtain ⟨lp, h1, h2, h3, h4⟩ := wp_iff.1 this
    exact ⟨lp, h1, h2, h3, fun j hj => h4 j (by omega)⟩
  · exact ⟨by simp, getD_replicate _ _ _ _ (by omega), fun j hj => by omega⟩
  · rintro l lp hl1 hl2 ⟨h1, h2, h3⟩
    rw [rd_getD 0 (by omega), ok_bind, rd_getD 0 (by omega), ok_bind, wr_eq (by omega), wp_ok]
    refine ⟨by simpa using h1, ?_, ?_⟩
    · rw [getD_set, if_neg (by omega), h2]
    · intro j hj
      rw [getD_set, getD_set, if_neg (show ¬ (l = j ∧ l < lp.length) by omega)]
      by_cases e : l = j + 1
      · subst e
        rw [if_pos (by omega)]; rfl
      · rw [if_neg (by omega)]
        exact h3 j (by omega)

/-- The columns written so far. -/
structure Cols (n : Nat) (cc lp : List Nat) (f : Nat → List Nat) (li finger : List Nat) : Prop where
  len : li.length = lp.getD n 0
  flen : finger.length = n
  fin : ∀ j, j < n → finger.getD j 0 = (f j).length
  fit : ∀ j, j < n → (f j).length ≤ cc.getD j 0
  col : ∀ j, j < n → slice li (lp.getD j 0) (lp.getD j 0 + (f j).length) = f j

theorem slice_set_out {α : Type} {s : List α} {i a b : Nat} (v : α) (h : i < a ∨ b ≤ i) :
    slice (s.set i v) a b = slice s a b := by
  apply List.ext_getElem?
  intro k
  rw [getElem?_slice, getElem?_slice]
  by_cases hk : a + k < b
  · rw [if_pos hk, if_pos hk, List.getElem?_set_ne (by omega)]
  · rw [if_neg hk, if_neg hk]

theorem Cols.put {cc lp : List Nat} (hp : Ptr n cc lp) {f : Nat → List Nat} {li finger : List Nat}
    (h : Cols n cc lp f li finger) {j : Nat} (hj : j < n) (hfit : (f j).length < cc.getD j 0) (v : Nat) :
    lp.getD j 0 + finger.getD j 0 < li.length ∧
    Cols n cc lp (Function.update f j (f j ++ [v])) (li.set (lp.getD j 0 + finger.getD j 0) v)
      (finger.set j (finger.getD j 0 + 1)) := by
  have hnext := hp.next (j := j) (j' := n) hj (le_refl _)
  have hlt : lp.getD j 0 + finger.getD j 0 < li.length := by
    rw [h.fin j hj, h.len]; omega
  refine ⟨hlt, by simpa using h.len, by simpa using h.flen, ?_, ?_, ?_⟩
  · intro i hi
    rw [getD_set]
    by_cases e : j = i
    · subst e
      rw [if_pos ⟨rfl, by rw [h.flen]; exact hj⟩, Function.update_self, h.fin j hj]; simp
    · rw [if_neg (by tauto), Function.update_of_ne (Ne.symm e), h.fin i hi]
  · intro i hi
    by_cases e : j = i
    · subst e
      rw [Function.update_self, List.length_append, List.length_singleton]; omega
    · rw [Function.update_of_ne (Ne.symm e)]; exact h.fit i hi
  · intro i hi
    by_cases e : j = i
    · subst e
      rw [Function.update_self, h.fin j hj]
      have hv : (li.set (lp.getD j 0 + (f j).length) v)[lp.getD j 0 + (f j).length]? = some v := by
        rw [h.fin j hj] at hlt
        exact List.getElem?_set_self hlt
      rw [List.length_append, List.length_singleton, ← Nat.add_assoc, slice_succ (by omega) hv,
        slice_set_out v (Or.inr (le_refl _)), h.col j hj]
    · rw [Function.update_of_ne (Ne.symm e), slice_set_out, h.col i hi]
      rw [h.fin j hj]
      have hfi := h.fit i hi
      rcases Nat.lt_or_gt_of_ne e with e | e
      · have := hp.next e (by omega); omega
      · have := hp.next e (by omega); omega

variable {V : Type} {A : Sp V} {parent : List (Option Nat)}

theorem costPerCol_wp (hA : A.PatWF)
    (hE : IsEtree (Etree.symE A) A.cols fun j => parent.getD j none) (hpl : A.cols ≤ parent.length)
    {k : Nat} (hk : k < A.cols) {s : List Nat} {w : List Int} (hs : A.cols ≤ s.length)
    (hw : A.cols ≤ w.length) (hw0 : ∀ x, x < A.cols → 0 ≤ w.getD x 0) :
    ∃ top s', costPerCol A.cols k parent A.p A.i s w
        = ok (((factorRow (Etree.symE A) A.cols k).map fun j => (A.colRows j).length).sum, top, s', w) ∧
      s'.length = s.length ∧ top ≤ A.cols ∧ (slice s' top A.cols).Nodup ∧
      (∀ j, j ∈ slice s' top A.cols ↔ Fill (Etree.symE A) k j) := by
  obtain ⟨top, s', h1, h2, h3, h4, h5, _⟩ := ereach_wp hA hE hpl hk hs hw hw0
  refine ⟨top, s', ?_, h2, h3, h4, h5⟩
  have hlen : ∀ j, j < A.cols → A.p.getD (j + 1) 0 - A.p.getD j 0 = (A.colRows j).length := by
    intro j hj
    obtain ⟨g1, g2⟩ := Etree.slice_rows hA hj
    unfold Sp.colRows
    rw [List.length_take, List.length_drop]; omega
  have hl := hA.plen
  have hloop : forRange top A.cols (fun i total => do
      let c ← rd s' i
      let hi ← rd A.p (c + 1)
      let lo ← rd A.p c
      ok (total + (hi - lo))) 0 = forEach (slice s' top A.cols) (fun c total => do
      let hi ← rd A.p (c + 1)
      let lo ← rd A.p c
      ok (total + (hi - lo))) 0 :=
    forRange_rd s' (fun c total => do
      let hi ← rd A.p (c + 1)
      let lo ← rd A.p c
      ok (total + (hi - lo))) _ _ 0 (by omega)
  have hsum : ∀ (S : List Nat) (t : Nat), (∀ x ∈ S, x < A.cols) → forEach S (fun c total => do
      let hi ← rd A.p (c + 1)
      let lo ← rd A.p c
      ok (total + (hi - lo))) t = ok (t + (S.map fun j => (A.colRows j).length).sum) := by
    intro S
    induction S with
    | nil => intro t _; simp [forEach]
    | cons x S ih =>
      intro t hx
      have hxn := hx x (by simp)
      rw [forEach, rd_getD 0 (by omega), ok_bind, rd_getD 0 (by omega), ok_bind, ok_bind,
        ih _ (fun y hy => hx y (by simp [hy])), hlen x hxn]
      simp; omega
  unfold costPerCol
  rw [h1, ok_bind]
  dsimp only
  rw [hloop, hsum _ _ (fun x hx => by have := ((h5 x).1 hx).lt; omega), ok_bind,
    rd_getD 0 (by omega), ok_bind, rd_getD 0 (by omega), ok_bind, hlen k hk]
  have hperm : (slice s' top A.cols ++ [k]).Perm (factorRow (Etree.symE A) A.cols k) := by
    rw [List.perm_ext_iff_of_nodup]
    · intro j
      rw [List.mem_append, h5, List.mem_singleton, mem_factorRow]
      constructor
      · rintro (h | rfl)
        · exact ⟨by have := h.lt; omega, Or.inr h⟩
        · exact ⟨hk, Or.inl rfl⟩
      · rintro ⟨_, h | h⟩
        · exact Or.inr h
        · exact Or.inl h
    · rw [List.nodup_append]
      refine ⟨h4, by simp, ?_⟩
      intro a ha b hb
      rw [List.mem_singleton] at hb
      have := ((h5 a).1 ha).lt
      omega
    · exact List.nodup_range.filter _
  rw [← (hperm.map _).sum_eq]
  simp

theorem buildRow_wp (hA : A.PatWF) (debug : Bool)
    (hE : IsEtree (Etree.symE A) A.cols fun j => parent.getD j none) (hpl : A.cols ≤ parent.length)
    {cc lp : List Nat} (hp : Ptr A.cols cc lp)
    (hcc : ∀ j, j < A.cols → cc.getD j 0 = (factorCol (Etree.symE A) A.cols j).length)
    {r : Nat} (hr : r < A.cols) {b : Build} (hs : A.cols ≤ b.s.length)
    (hw : A.cols ≤ b.w.length) (hw0 : ∀ x, x < A.cols → 0 ≤ b.w.getD x 0)
    (hacc : A.cols ≤ b.acc.length)
    (hb : Cols A.cols cc lp (factorCol (Etree.symE A) r) b.li b.finger) :
    ∃ li finger s', buildRow debug A.cols (lp.getD A.cols 0) A.p A.i lp parent r b
        = ok ⟨li, finger, b.acc.set r
            ((factorRow (Etree.symE A) A.cols r).map fun j => (A.colRows j).length).sum, s', b.w⟩ ∧
      s'.length = b.s.length ∧ Cols A.cols cc lp (factorCol (Etree.symE A) (r + 1)) li finger := by
  obtain ⟨top, s', h1, h2, h3, h4, h5⟩ := costPerCol_wp hA hE hpl hr hs hw hw0
  have hplen := hp.len
  have hflen := hb.flen
  have fits : ∀ j, j < A.cols → (r = j ∨ Fill (Etree.symE A) r j) →
      (factorCol (Etree.symE A) r j).length < cc.getD j 0 := by
    intro j hj h
    have := factorCol_mono (E := Etree.symE A) (j := j) (show r + 1 ≤ A.cols by omega)
    rw [factorCol_succ_pos h] at this
    rw [hcc j hj]
    simp at this
    omega
  have hput := hb.put hp hr (fits r hr (Or.inl rfl)) r
  have hf0 : b.finger.getD r 0 = 0 := by rw [hb.fin r hr, factorCol_self]; rfl
  have hloop : forRange top A.cols (fun i (t : List Nat × List Nat) => do
      let col ← rd s' i
      if debug = true ∧ ¬ col < A.cols then exn else do
      let q ← rd lp col
      let f ← rd t.2 col
      if debug = true ∧ ¬ q + f < lp.getD A.cols 0 then exn else do
      let li ← wr t.1 (q + f) r
      let finger ← wr t.2 col (f + 1)
      ok (li, finger)) (b.li.set (lp.getD r 0) r, b.finger.set r (b.finger.getD r 0 + 1))
      = forEach (slice s' top A.cols) (fun col (t : List Nat × List Nat) => 
      if debug = true ∧ ¬ col < A.cols then exn else do
      let q ← rd lp col
      let f ← rd t.2 col
      if debug = true ∧ ¬ q + f < lp.getD A.cols 0 then exn else do
      let li ← wr t.1 (q + f) r
      let finger ← wr t.2 col (f + 1)
      ok (li, finger)) (b.li.set (lp.getD r 0) r, b.finger.set r (b.finger.getD r 0 + 1)) :=
    forRange_rd s' (fun col (t : List Nat × List Nat) => 
      if debug = true ∧ ¬ col < A.cols then exn else do
      let q ← rd lp col
      let f ← rd t.2 col
      if debug = true ∧ ¬ q + f < lp.getD A.cols 0 then exn else do
      let li ← wr t.1 (q + f) r
      let finger ← wr t.2 col (f + 1)
      ok (li, finger)) _ _ _ (by omega)
  -- columns after the prefix `pre` of the row
  have key := forEach_wp (I := fun pre (t : List Nat × List Nat) =>
      Cols A.cols cc lp (fun j => if j = r ∨ j ∈ pre then factorCol (Etree.symE A) r j ++ [r]
        else factorCol (Etree.symE A) r j) t.1 t.2)
    (f := fun col (t : List Nat × List Nat) => 
      if debug = true ∧ ¬ col < A.cols then exn else do
      let q ← rd lp col
      let f ← rd t.2 col
      if debug = true ∧ ¬ q + f < lp.getD A.cols 0 then exn else do
      let li ← wr t.1 (q + f) r
      let finger ← wr t.2 col (f + 1)
      ok (li, finger)) (slice s' top A.cols) []
    (b.li.set (lp.getD r 0) r, b.finger.set r (b.finger.getD r 0 + 1)) ?_ ?_
  · obtain ⟨⟨li, finger⟩, g1, g2⟩ := wp_iff.1 key
    refine ⟨li, finger, s', ?_, h2, ?_⟩
    · unfold buildRow
      rw [h1, ok_bind]
      dsimp only
      have hq := hput.1
      rw [hf0, Nat.add_zero] at hq
      rw [wr_eq (by omega), ok_bind, rd_getD 0 (by omega), ok_bind, wr_eq hq, ok_bind,
        rd_getD 0 (by omega), ok_bind, wr_eq (by omega), ok_bind, hloop, g1, ok_bind]
    · rw [List.nil_append] at g2
      dsimp only at g2
      have hfun : factorCol (Etree.symE A) (r + 1) = fun j => if j = r ∨ j ∈ slice s' top A.cols then
          factorCol (Etree.symE A) r j ++ [r] else factorCol (Etree.symE A) r j := by
        funext j
        have h5' : (j = r ∨ j ∈ slice s' top A.cols) ↔ (j = r ∨ Fill (Etree.symE A) r j) := by
          rw [h5]
        by_cases h : j = r ∨ Fill (Etree.symE A) r j
        · rw [if_pos (h5'.2 h), factorCol_succ_pos (h.imp Eq.symm id)]
        · rw [if_neg (fun g => h (h5'.1 g)), factorCol_succ_neg (fun g => h (g.imp Eq.symm id))]
      rw [hfun]
      exact g2
  · dsimp only
    have := hput.2
    rw [hf0, Nat.add_zero] at this ⊢
    convert this using 2
    rename_i j
    by_cases e : j = r
    · subst e; simp
    · simp [e]
  · rintro pre j post ⟨li, finger⟩ he hI
    dsimp only at hI ⊢
    rw [List.nil_append] at he
    have hjS : j ∈ slice s' top A.cols := by rw [he]; simp
    have hfj := (h5 j).1 hjS
    have hj : j < A.cols := by have := hfj.lt; omega
    have hjr : j ≠ r := by have := hfj.lt; omega
    have hjp : j ∉ pre := by
      intro hm
      rw [he] at h4
      exact (List.nodup_append.1 h4).2.2 j hm j (by simp) rfl
    have hput := hI.put hp hj (by
      rw [if_neg (by tauto)]
      exact fits j hj (Or.inr hfj)) r
    have hIl := hI.len
    have hIf := hI.flen
    rw [if_neg (by simp [hj]), rd_getD 0 (by omega), ok_bind, rd_getD 0 (by omega), ok_bind,
      if_neg (fun h => absurd hput.1 (by have := h.2; omega)), wr_eq hput.1, ok_bind, wr_eq (by omega),
      ok_bind, wp_ok]
    dsimp only
    convert hput.2 using 2
    rename_i i
    by_cases e : i = j
    · subst e
      simp [hjr, hjp]
    · rw [Function.update_of_ne e]
      have : (i = r ∨ i ∈ pre ++ [j]) ↔ (i = r ∨ i ∈ pre) := by simp [e]
      simp only [this]

theorem buildPattern_wp (hA : A.PatWF) (debug : Bool)
    (hE : IsEtree (Etree.symE A) A.cols fun j => parent.getD j none) (hpl : A.cols ≤ parent.length)
    {cc acc : List Nat} (hcl : A.cols ≤ cc.length) (hal : A.cols ≤ acc.length)
    (hcc : ∀ j, j < A.cols → cc.getD j 0 = (factorCol (Etree.symE A) A.cols j).length)
    (garbage : Nat → Nat) :
    ∃ lp li acc', buildPattern debug A.cols A.p A.i cc parent acc garbage = ok (lp, li, acc') ∧
      Ptr A.cols cc lp ∧ li.length = lp.getD A.cols 0 ∧
      (∀ j, j < A.cols → slice li (lp.getD j 0) (lp.getD (j + 1) 0) = factorCol (Etree.symE A) A.cols j) ∧
      acc'.length = acc.length ∧
      (∀ k, k < A.cols → acc'.getD k 0
        = ((factorRow (Etree.symE A) A.cols k).map fun j => (A.colRows j).length).sum) ∧
      ∀ k, A.cols ≤ k → acc'.getD k 0 = acc.getD k 0 := by
  obtain ⟨lp, p1, p2⟩ := ptr_wp hcl
  have hplen := p2.len
  have key := forRange_wp (I := fun r (b : Build) =>
      A.cols ≤ b.s.length ∧ b.w = List.replicate A.cols 0 ∧ b.acc.length = acc.length ∧
      Cols A.cols cc lp (factorCol (Etree.symE A) r) b.li b.finger ∧
      (∀ k, k < r → b.acc.getD k 0
        = ((factorRow (Etree.symE A) A.cols k).map fun j => (A.colRows j).length).sum) ∧
      ∀ k, r ≤ k → b.acc.getD k 0 = acc.getD k 0)
    (lo := 0) (hi := A.cols) (f := buildRow debug A.cols (lp.getD A.cols 0) A.p A.i lp parent)
    (s := ⟨(List.range (lp.getD A.cols 0)).map garbage, List.replicate A.cols 0, acc,
      List.replicate A.cols 0, List.replicate A.cols 0⟩) (by omega) ?_ ?_
  · obtain ⟨b, g1, g2, g3, g4, g5, g6, g7⟩ := wp_iff.1 key
    refine ⟨lp, b.li, b.acc, ?_, p2, g5.len, ?_, g4, g6, g7⟩
    · unfold buildPattern
      rw [p1, ok_bind, rd_getD 0 (by omega), ok_bind, g1, ok_bind]
    · intro j hj
      rw [p2.succ j hj, hcc j hj]
      exact g5.col j hj
  · refine ⟨by simp, rfl, rfl, ⟨by simp, by simp, ?_, ?_, ?_⟩, fun k hk => by omega, fun k _ => rfl⟩
    · intro j hj; rw [getD_replicate _ _ _ _ hj]; simp [factorCol]
    · intro j hj; simp [factorCol]
    · intro j hj; simp [factorCol, slice_self]
  · rintro r b _ hr ⟨g1, g2, g3, g4, g5, g6⟩
    obtain ⟨li, finger, s', e1, e2, e3⟩ := buildRow_wp hA debug hE hpl p2 hcc hr g1
      (by rw [g2]; simp) (by intro x hx; rw [g2, getD_replicate _ _ _ _ hx]) (by omega) g4
    rw [e1, wp_ok]
    refine ⟨by dsimp only; omega, g2, by simpa using g3, e3, ?_, ?_⟩
    · intro k hk
      dsimp only
      rw [getD_set]
      by_cases e : r = k
      · subst e; rw [if_pos ⟨rfl, by omega⟩]
      · rw [if_neg (by tauto)]; exact g5 k (by omega)
    · intro k hk
      dsimp only
      rw [getD_set, if_neg (by omega)]
      exact g6 k (by omega)

end LFactor
end Verif
