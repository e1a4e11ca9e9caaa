import Verif.Proof.Exec

/-! Row semantics: serial code, thread code, and the row equation. -/

namespace Verif.Exec
open Res

variable {V : Type} {A : Arith V} {m : Mat V}

/-- Storage facts used for one row. -/
theorem off_eq (hwf : m.WF) {r : Nat} (hr : r < m.n) :
    m.off r = ((m.i.zip m.x).drop (m.pat.ptr r)).take (m.pat.ptr (r + 1) - 1 - m.pat.ptr r) := by
  unfold Mat.off Mat.row
  rw [List.dropLast_eq_take, List.take_take]
  congr 1
  have h1 := hwf.pat.ptr_le (a := r + 1) (by exact hr)
  have h2 := hwf.pat.mono_le (a := r + 1) (b := m.n) (by omega) (le_refl _)
  have h3 := hwf.xlen
  have h4 : m.pat.i = m.i := rfl
  rw [h4] at h1
  simp
  omega

theorem zip_len (hwf : m.WF) {r : Nat} (hr : r ≤ m.n) :
    m.pat.ptr r ≤ (m.i.zip m.x).length := by
  have h1 := hwf.pat.ptr_le (a := r) hr
  have h2 := hwf.pat.mono_le (a := r) (b := m.n) hr (le_refl _)
  have h3 := hwf.xlen
  have h4 : m.pat.i = m.i := rfl
  rw [h4] at h1
  simp
  omega

theorem row_nonempty {r : Nat} {e : Nat × V} (h : (m.row r).getLast? = some e) :
    m.pat.ptr r < m.pat.ptr (r + 1) := by
  by_contra hc
  have : m.row r = [] := by
    unfold Mat.row
    rw [show m.pat.ptr (r + 1) - m.pat.ptr r = 0 by omega]
    rfl
  rw [this] at h
  simp at h

theorem last_x (hwf : m.WF) {r : Nat} (hr : r < m.n) {e : Nat × V}
    (h : (m.row r).getLast? = some e) :
    rdZ m.x ((m.pat.ptr (r + 1) : Int) - 1) = ok e.2 := by
  have hne := row_nonempty h
  have hl := zip_len hwf (r := r + 1) hr
  have hlen : (m.row r).length = m.pat.ptr (r + 1) - m.pat.ptr r := by
    unfold Mat.row
    rw [List.length_take, List.length_drop]; omega
  rw [List.getLast?_eq_getElem?, hlen] at h
  unfold Mat.row at h
  rw [List.getElem?_take, if_pos (by omega), List.getElem?_drop,
    show m.pat.ptr r + (m.pat.ptr (r + 1) - m.pat.ptr r - 1) = m.pat.ptr (r + 1) - 1 by omega] at h
  rw [List.getElem?_zip_eq_some] at h
  have hz : rdZ m.x ((m.pat.ptr (r + 1) : Int) - 1) = rd m.x (m.pat.ptr (r + 1) - 1) := by
    unfold rdZ
    rw [if_neg (by omega)]
    congr 1; omega
  rw [hz, rd, h.2]

/-- The pure loop of one row over the off-diagonal entries. -/
def rowStep (A : Arith V) (i : Nat) (e : Nat × V) (x : List V) : Res (List V) := do
  let xi ← rd x i
  let xc ← rd x e.1
  wr x i (A.upd xi e.2 xc)

theorem serialRow_eq (hwf : m.WF) {i : Nat} (hi : i < m.n) {e : Nat × V}
    (hd : (m.row i).getLast? = some e) (x : List V) :
    serialRow A m.p m.i m.x i x = (do
      let x ← forEach (m.off i) (rowStep A i) x
      let xi ← rd x i
      wr x i (A.dv xi e.2)) := by
  unfold serialRow
  have e1 : rd m.p i = ok (m.pat.ptr i) := hwf.pat.rd_p (Nat.le_of_lt hi)
  have e2 : rd m.p (i + 1) = ok (m.pat.ptr (i + 1)) := hwf.pat.rd_p hi
  rw [e1, e2]
  simp only [ok_bind]
  rw [last_x hwf hi hd]
  simp only [ok_bind]
  unfold forRange
  have hl := zip_len hwf (r := i + 1) hi
  have hne := row_nonempty hd
  rw [forN_slice (m.i.zip m.x) _ (rowStep A i) _ _ _ (by omega), off_eq hwf hi]
  intro j a s h1 h2 ha
  rw [List.getElem?_zip_eq_some] at ha
  simp only [rowStep, rd, ha.1, ha.2, ok_bind]

/-- The accesses of one row. -/
def rowInstrs (m : Mat V) (i : Nat) (d : V) : List (Instr V) :=
  (m.off i).flatMap (fun e => [.ld1 i, .ld2 e.1, .sub i e.2]) ++ [.ld1 i, .div i d]

theorem forEach_flatMap {α β : Type} (c : α → List β) (l : List α) (acc : List β) :
    forEach l (fun a acc => ok (acc ++ c a)) acc = ok (acc ++ l.flatMap c) := by
  induction l generalizing acc with
  | nil => simp [forEach]
  | cons a l ih => simp only [forEach, ok_bind, ih, List.flatMap_cons, List.append_assoc]

theorem rowCode_eq (hwf : m.WF) {i : Nat} (hi : i < m.n) {e : Nat × V}
    (hd : (m.row i).getLast? = some e) :
    rowCode m.p m.i m.x i = ok (rowInstrs m i e.2) := by
  unfold rowCode
  have e1 : rd m.p i = ok (m.pat.ptr i) := hwf.pat.rd_p (Nat.le_of_lt hi)
  have e2 : rd m.p (i + 1) = ok (m.pat.ptr (i + 1)) := hwf.pat.rd_p hi
  rw [e1, e2]
  simp only [ok_bind]
  rw [last_x hwf hi hd]
  simp only [ok_bind, pure_eq]
  unfold forRange
  have hl := zip_len hwf (r := i + 1) hi
  have hne := row_nonempty hd
  rw [forN_slice (m.i.zip m.x) _
    (fun e acc => ok (acc ++ [Instr.ld1 i, Instr.ld2 e.1, Instr.sub i e.2])) _ _ _ (by omega),
    forEach_flatMap, ← off_eq hwf hi]
  · simp only [ok_bind, rowInstrs, List.nil_append]
  · intro j a s h1 h2 ha
    rw [List.getElem?_zip_eq_some] at ha
    simp only [rd, ha.1, ha.2, ok_bind]

theorem set_getElem?_self {x : List V} {i : Nat} {v w : V} (h : x[i]? = some v) :
    (x.set i w)[i]? = some w := by
  have : i < x.length := by
    by_contra hc
    rw [List.getElem?_eq_none (by omega)] at h
    cases h
  simp [this]

/-- The accumulation over off-diagonal entries, serial version. -/
theorem forEach_rowStep {i : Nat} (l : List (Nat × V)) (hne : ∀ e ∈ l, e.1 ≠ i) :
    ∀ (x : List V) (acc acc' : V), x[i]? = some acc →
      l.foldlM (fun acc e => do
        let y ← x[e.1]?
        pure (A.upd acc e.2 y)) acc = some acc' →
      forEach l (rowStep A i) x = ok (x.set i acc') := by
  induction l with
  | nil =>
    intro x acc acc' hx hf
    simp [forEach] at hf ⊢
    subst hf
    apply List.ext_getElem?
    intro j
    by_cases hj : i = j
    · subst hj; rw [set_getElem?_self hx, hx]
    · rw [List.getElem?_set_ne hj]
  | cons e l ih =>
    intro x acc acc' hx hf
    rw [List.foldlM_cons] at hf
    cases hy : x[e.1]? with
    | none => rw [hy] at hf; cases hf
    | some y =>
      rw [hy] at hf
      simp only [Option.pure_def, Option.bind_eq_bind, Option.bind_some] at hf
      have hi : i < x.length := by
        by_contra hc
        rw [List.getElem?_eq_none (by omega)] at hx
        cases hx
      simp only [forEach, rowStep, rd, hx, hy, ok_bind, wr_eq hi]
      have hne' : ∀ e ∈ l, e.1 ≠ i := fun e he => hne e (List.mem_cons_of_mem _ he)
      have hcongr : ∀ (l : List (Nat × V)), (∀ e ∈ l, e.1 ≠ i) → ∀ (x' : List V) (a0 : V),
          (∀ j, j ≠ i → x'[j]? = x[j]?) →
          l.foldlM (fun acc e => do
            let y ← x'[e.1]?
            pure (A.upd acc e.2 y)) a0 =
          l.foldlM (fun acc e => do
            let y ← x[e.1]?
            pure (A.upd acc e.2 y)) a0 := by
        intro l hl x' a0 hx'
        induction l generalizing a0 with
        | nil => rfl
        | cons e l ih2 =>
          rw [List.foldlM_cons, List.foldlM_cons, hx' e.1 (hl e (List.mem_cons_self))]
          congr 1
          funext v
          exact ih2 (fun e he => hl e (List.mem_cons_of_mem _ he)) v
      rw [ih hne' (x.set i (A.upd acc e.2 y)) (A.upd acc e.2 y) acc' (set_getElem?_self hx)]
      · rw [List.set_set]
      · rw [hcongr l hne' _ _ (fun j hj => List.getElem?_set_ne (fun h => hj h.symm))]
        exact hf

/-- The accumulation over off-diagonal entries, thread version. -/
theorem solo_off {i : Nat} (l : List (Nat × V)) (hne : ∀ e ∈ l, e.1 ≠ i) :
    ∀ (x : List V) (r1 r2 : Option V) (acc acc' : V), x[i]? = some acc →
      l.foldlM (fun acc e => do
        let y ← x[e.1]?
        pure (A.upd acc e.2 y)) acc = some acc' →
      ∃ s1 s2, solo A (l.flatMap (fun e => [.ld1 i, .ld2 e.1, .sub i e.2])) ⟨r1, r2, x⟩
        = ok ⟨s1, s2, x.set i acc'⟩ := by
  induction l with
  | nil =>
    intro x r1 r2 acc acc' hx hf
    simp at hf
    subst hf
    refine ⟨r1, r2, ?_⟩
    simp only [List.flatMap_nil, solo]
    congr 2
    apply List.ext_getElem?
    intro j
    by_cases hj : i = j
    · subst hj; rw [set_getElem?_self hx, hx]
    · rw [List.getElem?_set_ne hj]
  | cons e l ih =>
    intro x r1 r2 acc acc' hx hf
    rw [List.foldlM_cons] at hf
    cases hy : x[e.1]? with
    | none => rw [hy] at hf; cases hf
    | some y =>
      rw [hy] at hf
      simp only [Option.pure_def, Option.bind_eq_bind, Option.bind_some] at hf
      have hi : i < x.length := by
        by_contra hc
        rw [List.getElem?_eq_none (by omega)] at hx
        cases hx
      rw [List.flatMap_cons, solo_append]
      simp only [solo, Instr.exec, rd, hx, hy, ok_bind, wr_eq hi, pure_eq]
      have hne' : ∀ e ∈ l, e.1 ≠ i := fun e he => hne e (List.mem_cons_of_mem _ he)
      have hcongr : ∀ (l : List (Nat × V)), (∀ e ∈ l, e.1 ≠ i) → ∀ (x' : List V) (a0 : V),
          (∀ j, j ≠ i → x'[j]? = x[j]?) →
          l.foldlM (fun acc e => do
            let y ← x'[e.1]?
            pure (A.upd acc e.2 y)) a0 =
          l.foldlM (fun acc e => do
            let y ← x[e.1]?
            pure (A.upd acc e.2 y)) a0 := by
        intro l hl x' a0 hx'
        induction l generalizing a0 with
        | nil => rfl
        | cons e l ih2 =>
          rw [List.foldlM_cons, List.foldlM_cons, hx' e.1 (hl e (List.mem_cons_self))]
          congr 1
          funext v
          exact ih2 (fun e he => hl e (List.mem_cons_of_mem _ he)) v
      obtain ⟨s1, s2, h⟩ := ih hne' (x.set i (A.upd acc e.2 y)) (some acc) (some y)
        (A.upd acc e.2 y) acc' (set_getElem?_self hx) (by
          rw [hcongr l hne' _ _ (fun j hj => List.getElem?_set_ne (fun h => hj h.symm))]
          exact hf)
      refine ⟨s1, s2, ?_⟩
      rw [h, List.set_set]

/-- Serial execution of one row. -/
theorem serialRow_spec (hwf : m.WF) {i : Nat} (hi : i < m.n) {e : Nat × V}
    (hd : (m.row i).getLast? = some e) (hne : ∀ e ∈ m.off i, e.1 ≠ i) {x : List V} {v : V}
    (hv : m.rowEq A x x i = some v) :
    serialRow A m.p m.i m.x i x = ok (x.set i v) := by
  rw [serialRow_eq hwf hi hd]
  unfold Mat.rowEq at hv
  cases hx : x[i]? with
  | none => rw [hx] at hv; cases hv
  | some b =>
    rw [hx] at hv
    simp only [Option.bind_eq_bind, Option.bind_some, hd] at hv
    rw [Option.bind_eq_some_iff] at hv
    obtain ⟨acc, h1, h2⟩ := hv
    simp at h2
    subst h2
    rw [forEach_rowStep _ hne x b acc hx h1]
    have hil : i < x.length := by
      by_contra hc
      rw [List.getElem?_eq_none (by omega)] at hx
      cases hx
    simp only [ok_bind]
    rw [rd, set_getElem?_self hx]
    simp only [ok_bind]
    rw [wr_eq (by simpa using hil), List.set_set]

/-- Thread execution of one row. -/
theorem solo_row {i : Nat} {e : Nat × V}
    (hd : (m.row i).getLast? = some e) (hne : ∀ e ∈ m.off i, e.1 ≠ i) {x : List V} {v : V}
    (hv : m.rowEq A x x i = some v) (r1 r2 : Option V) :
    ∃ s1 s2, solo A (rowInstrs m i e.2) ⟨r1, r2, x⟩ = ok ⟨s1, s2, x.set i v⟩ := by
  unfold Mat.rowEq at hv
  cases hx : x[i]? with
  | none => rw [hx] at hv; cases hv
  | some b =>
    rw [hx] at hv
    simp only [Option.bind_eq_bind, Option.bind_some, hd] at hv
    rw [Option.bind_eq_some_iff] at hv
    obtain ⟨acc, h1, h2⟩ := hv
    simp at h2
    subst h2
    obtain ⟨s1, s2, h⟩ := solo_off _ hne x r1 r2 b acc hx h1
    have hil : i < x.length := by
      by_contra hc
      rw [List.getElem?_eq_none (by omega)] at hx
      cases hx
    refine ⟨some acc, s2, ?_⟩
    rw [rowInstrs, solo_append, h]
    simp only [ok_bind, solo, Instr.exec, rd, set_getElem?_self hx, pure_eq]
    rw [wr_eq (by simpa using hil), List.set_set]
    rfl

theorem rowEq_congr {b b' xs xs' : List V} {r : Nat} (hb : b[r]? = b'[r]?)
    (hx : ∀ e ∈ m.off r, xs[e.1]? = xs'[e.1]?) : m.rowEq A b xs r = m.rowEq A b' xs' r := by
  unfold Mat.rowEq
  rw [hb]
  congr 1
  funext br
  have : ∀ (l : List (Nat × V)) a0, (∀ e ∈ l, xs[e.1]? = xs'[e.1]?) →
      l.foldlM (fun acc e => do
        let y ← xs[e.1]?
        pure (A.upd acc e.2 y)) a0 =
      l.foldlM (fun acc e => do
        let y ← xs'[e.1]?
        pure (A.upd acc e.2 y)) a0 := by
    intro l
    induction l with
    | nil => intros; rfl
    | cons e l ih =>
      intro a0 hl
      rw [List.foldlM_cons, List.foldlM_cons, hl e (List.mem_cons_self)]
      congr 1
      funext v
      exact ih v (fun e he => hl e (List.mem_cons_of_mem _ he))
  rw [this _ _ hx]

/-- Progress of a solve: the rows in `D` hold their final values, the others the right-hand
side. -/
def Prog (m : Mat V) (b xs : List V) (D : List Nat) (x : List V) : Prop :=
  x.length = m.n ∧ ∀ a, x[a]? = if a ∈ D then xs[a]? else b[a]?

theorem Prog.row {b xs x : List V} {D : List Nat} (hS : m.Solution A b xs)
    (hp : Prog m b xs D x) {i : Nat} (hi : i < m.n) (hn : i ∉ D)
    (hdep : ∀ u, m.RowDep u i → u ∈ D) :
    ∃ v, m.rowEq A x x i = some v ∧ Prog m b xs (D ++ [i]) (x.set i v) := by
  obtain ⟨v, h1, h2⟩ := hS.2 i hi
  refine ⟨v, ?_, by simpa using hp.1, ?_⟩
  · rw [← h2]
    apply rowEq_congr
    · rw [hp.2 i, if_neg hn]
    · intro e he
      rw [hp.2 e.1, if_pos (hdep e.1 ⟨hi, e.2, he⟩)]
  · intro a
    by_cases ha : i = a
    · subst ha
      have : i < x.length := by rw [hp.1]; exact hi
      simp [this, h1]
    · rw [List.getElem?_set_ne ha, hp.2 a]
      have : a ≠ i := fun h => ha h.symm
      simp [this]

/-- Rows as required by the solvers (no order requirement). -/
structure RowsOk (m : Mat V) : Prop where
  wf : m.WF
  diag : ∀ r, r < m.n → ∃ d, (m.row r).getLast? = some (r, d)
  offNe : ∀ r, r < m.n → ∀ e ∈ m.off r, e.1 ≠ r

theorem LowerCsr.rowsOk (h : m.LowerCsr) : RowsOk m :=
  ⟨h.wf, h.diag, fun r hr e he => Nat.ne_of_lt (h.lower r hr e he)⟩

/-- The last entry of a row (its diagonal value), as chosen from `RowsOk.diag`. -/
noncomputable def RowsOk.d (h : RowsOk m) {r : Nat} (hr : r < m.n) : V := (h.diag r hr).choose

theorem RowsOk.hd (h : RowsOk m) {r : Nat} (hr : r < m.n) :
    (m.row r).getLast? = some (r, h.d hr) := (h.diag r hr).choose_spec

/-- A solution exists for a lower triangular matrix. -/
theorem exists_solution (h : m.LowerCsr) {b : List V} (hb : b.length = m.n) :
    ∃ xs, m.Solution A b xs := by
  have key : ∀ k, k ≤ m.n → ∃ xs : List V, xs.length = k ∧
      ∀ r, r < k → ∃ v, xs[r]? = some v ∧ m.rowEq A b xs r = some v := by
    intro k
    induction k with
    | zero => intro _; exact ⟨[], rfl, by intro r hr; omega⟩
    | succ k ih =>
      intro hk
      obtain ⟨xs, hl, hx⟩ := ih (by omega)
      have hk' : k < m.n := hk
      obtain ⟨d, hd⟩ := h.diag k hk'
      have hfold : ∀ (l : List (Nat × V)) a0, (∀ e ∈ l, e.1 < k) →
          ∃ acc, l.foldlM (fun acc e => do
            let y ← xs[e.1]?
            pure (A.upd acc e.2 y)) a0 = some acc := by
        intro l
        induction l with
        | nil => intro a0 _; exact ⟨a0, rfl⟩
        | cons e l ih2 =>
          intro a0 hl2
          have he : e.1 < xs.length := by rw [hl]; exact hl2 e (List.mem_cons_self)
          rw [List.foldlM_cons, List.getElem?_eq_getElem he]
          exact ih2 _ (fun e he => hl2 e (List.mem_cons_of_mem _ he))
      have hbk : k < b.length := by omega
      obtain ⟨acc, hacc⟩ := hfold (m.off k) b[k] (h.lower k hk')
      have hrow : m.rowEq A b xs k = some (A.dv acc d) := by
        unfold Mat.rowEq
        rw [List.getElem?_eq_getElem hbk]
        simp only [Option.bind_eq_bind, Option.bind_some, hd]
        simp only [Option.bind_eq_bind] at hacc
        rw [hacc]
        rfl
      refine ⟨xs ++ [A.dv acc d], by simp [hl], ?_⟩
      intro r hr
      have hcong : m.rowEq A b (xs ++ [A.dv acc d]) r = m.rowEq A b xs r := by
        apply rowEq_congr rfl
        intro e he
        have := h.lower r (by omega) e he
        rw [List.getElem?_append_left (by omega)]
      rw [hcong]
      rcases Nat.lt_or_ge r k with h1 | h1
      · obtain ⟨v, h2, h3⟩ := hx r h1
        exact ⟨v, by rw [List.getElem?_append_left (by omega)]; exact h2, h3⟩
      · have : r = k := by omega
        subst this
        exact ⟨_, by rw [List.getElem?_append_right (by omega)]; simp [hl], hrow⟩
  obtain ⟨xs, h1, h2⟩ := key m.n (le_refl _)
  exact ⟨xs, h1, h2⟩

theorem Prog.full {b xs x : List V} {D : List Nat} (hl : xs.length = m.n)
    (hp : Prog m b xs D x) (hD : ∀ a, a < m.n → a ∈ D) : x = xs := by
  apply List.ext_getElem?
  intro a
  rcases Nat.lt_or_ge a m.n with h | h
  · rw [hp.2 a, if_pos (hD a h)]
  · rw [List.getElem?_eq_none (by rw [hp.1]; exact h), List.getElem?_eq_none (by omega)]

/-- The serial solver computes a solution. -/
theorem sptrsvCsr_spec (h : m.LowerCsr) {b xs : List V} (hb : b.length = m.n)
    (hS : m.Solution A b xs) : sptrsvCsr A m.n m.p m.i m.x b = ok xs := by
  unfold sptrsvCsr
  have hR := LowerCsr.rowsOk h
  have := forRange_wp (fun k x => Prog m b xs (List.range k) x) (f := serialRow A m.p m.i m.x)
    (s := b) (Nat.zero_le m.n) ⟨hb, by simp⟩ ?_
  · obtain ⟨x, h1, h2⟩ := wp_iff.1 this
    rw [h1, h2.full hS.1 (fun a ha => List.mem_range.2 ha)]
  · intro i x _ hi hp
    obtain ⟨v, h1, h2⟩ := hp.row hS hi (by simp) (by
      rintro u ⟨_, l, hl⟩
      exact List.mem_range.2 (h.lower i hi _ hl))
    rw [serialRow_spec h.wf hi (hR.hd hi) (hR.offNe i hi) h1]
    simp only [wp_ok]
    rw [List.range_succ]
    exact h2

end Verif.Exec
