import Verif.Proof.Ic0Csr
import Verif.Proof.Bcsc
import Verif.Proof.Ungroup
import Verif.Props.Ic0

/-!
# C111: the incomplete Cholesky kernels for rows

The statement S3 of the three kernels is guarded by a condition that is never true if the rows are sorted.  So they
only divide every row by the root of its diagonal entry, which is not an incomplete Cholesky factor.
-/

namespace Verif.Ic0r
open Res Exec

variable {V : Type} {a : Mat V}

/-- Every row is divided by the root of its last entry, which is replaced by its root. -/
def RowsScaled (A : IcArith V) (a : Mat V) (x : List V) : Prop :=
  x.length = a.x.length ∧ ∀ r c d, r < a.n → (a.row r).getLast? = some (c, d) →
    (a.withX x).row r = (a.off r).map (fun e => (e.1, A.dv e.2 (A.root d))) ++ [(c, A.root d)]

theorem rows (hm : a.LowerCsr) (hs : a.pat.Sorted) : Rows a.pat := by
  refine ⟨hm.wf.pat, hs, fun c hc => ?_⟩
  obtain ⟨d, hd⟩ := hm.diag c hc
  exact row_nonempty hd

theorem row_len (hwf : a.WF) {r : Nat} (hr : r < a.n) : (a.row r).length = a.pat.ptr (r + 1) - a.pat.ptr r := by
  have := congrArg List.length (Bcsc.row_fst hwf hr)
  rw [List.length_map, hwf.pat.col_length hr] at this
  exact this

theorem Inv.rowsScaled {A : IcArith V} (hwf : a.WF) {x : List V} (hI : Inv A a (List.range a.n) x) : RowsScaled A a x := by
  refine ⟨hI.len, fun r c d hr hlast => ?_⟩
  have hne := row_nonempty hlast
  have hwf' : (a.withX x).WF := ⟨hwf.pat, by show a.pat.ptr a.n ≤ x.length; rw [hI.len]; exact hwf.xlen⟩
  have hl := row_len hwf hr
  have hl' : ((a.withX x).row r).length = a.pat.ptr (r + 1) - a.pat.ptr r := row_len hwf' hr
  -- the diagonal
  have hdiag : a.x[a.pat.ptr (r + 1) - 1]? = some d ∧ a.i[a.pat.ptr (r + 1) - 1]? = some c := by
    obtain ⟨i, v, e1, e2, e3⟩ := Bcsc.row_get hwf hr (k := a.pat.ptr (r + 1) - 1) (by omega) (by omega)
    rw [List.getLast?_eq_getElem?, hl, show a.pat.ptr (r + 1) - a.pat.ptr r - 1 = a.pat.ptr (r + 1) - 1 - a.pat.ptr r by omega,
      e3] at hlast
    cases hlast
    exact ⟨e2, e1⟩
  apply List.ext_getElem?
  intro q
  by_cases hq : q < a.pat.ptr (r + 1) - a.pat.ptr r
  · obtain ⟨i, v, e1, e2, e3⟩ := Bcsc.row_get hwf hr (k := a.pat.ptr r + q) (by omega) (by omega)
    obtain ⟨i', v', e1', e2', e3'⟩ := Bcsc.row_get hwf' (j := r) hr (k := a.pat.ptr r + q) (by show a.pat.ptr r ≤ _; omega)
      (by show _ < a.pat.ptr (r + 1); omega)
    have hp : (a.withX x).pat.ptr r = a.pat.ptr r := rfl
    rw [hp, show a.pat.ptr r + q - a.pat.ptr r = q by omega] at e3'
    rw [show a.pat.ptr r + q - a.pat.ptr r = q by omega] at e3
    have hi : i' = i := by
      change a.i[_]? = some i' at e1'
      rw [e1] at e1'
      cases e1'
      rfl
    change x[_]? = some v' at e2'
    rw [hI.inside r _ hr (by omega) (by omega), if_pos (List.mem_range.2 hr)] at e2'
    unfold newVal at e2'
    rw [e3', hi, List.getElem?_append]
    have hoff : (a.off r).length = a.pat.ptr (r + 1) - a.pat.ptr r - 1 := by
      unfold Mat.off; rw [List.length_dropLast, hl]
    rw [List.length_map, hoff]
    by_cases hq' : q < a.pat.ptr (r + 1) - a.pat.ptr r - 1
    · rw [if_pos hq', List.getElem?_map]
      unfold Mat.off
      rw [List.getElem?_dropLast, if_pos (by omega), e3]
      rw [if_neg (by omega), e2, hdiag.1] at e2'
      simp only [Option.bind_some, Option.map_some, Option.some.injEq] at e2' ⊢
      rw [e2']
    · have : a.pat.ptr r + q = a.pat.ptr (r + 1) - 1 := by omega
      rw [if_neg hq', show q - (a.pat.ptr (r + 1) - a.pat.ptr r - 1) = 0 by omega]
      rw [if_pos (by omega), this, hdiag.1] at e2'
      rw [this, hdiag.2] at e1
      simp only [Option.map_some, Option.some.injEq] at e2' e1
      rw [← e2', ← e1]
      rfl
  · rw [List.getElem?_eq_none (by omega), List.getElem?_eq_none]
    unfold Mat.off
    rw [List.length_append, List.length_map, List.length_dropLast, hl]
    simp only [List.length_cons, List.length_nil]
    omega

/-- **C111, `spic0_csr`.** For sorted rows with the diagonal last: if the diagonal entries satisfy the assertion, the
kernel only scales the rows; otherwise the assertion fails. -/
theorem C111_serial (A : IcArith V) (pos : V → Bool) (hm : a.LowerCsr) (hs : a.pat.Sorted) :
    ((∀ r d, r < a.n → (a.row r).getLast? = some (r, d) → pos d = true) →
      ∃ x, ic0Csr A pos a.n a.p a.i a.x = ok x ∧ RowsScaled A a x) ∧
    ((∃ r d, r < a.n ∧ (a.row r).getLast? = some (r, d) ∧ pos d = false) →
      ic0Csr A pos a.n a.p a.i a.x = exn) := by
  have hR := rows hm hs
  have hx := hm.wf.xlen
  have hval : ∀ r v, r < a.n → a.x[a.pat.ptr (r + 1) - 1]? = some v → (a.row r).getLast? = some (r, v) := by
    intro r v hr hv
    obtain ⟨d, hd⟩ := hm.diag r hr
    have := last_x hm.wf hr hd
    have hne := row_nonempty hd
    unfold rdZ at this
    rw [if_neg (by omega), show ((a.pat.ptr (r + 1) : Int) - 1).toNat = a.pat.ptr (r + 1) - 1 by omega] at this
    unfold rd at this
    rw [hv] at this
    cases this
    exact hd
  constructor
  · intro hpos
    obtain ⟨x, h1, h2⟩ := wp_iff.1 (rows_wp (A := A) (pos := pos) hR hx (ord := List.range a.n) List.nodup_range
      (fun c hc => List.mem_range.1 hc) (fun i hi v hv => hpos i v hi (hval i v hi hv)))
    refine ⟨x, ?_, h2.rowsScaled hm.wf⟩
    unfold ic0Csr
    rw [Util.forRange_eq_forEach, ← h1]
  · intro hex
    classical
    have hP : ∃ r, r < a.n ∧ ∃ d, (a.row r).getLast? = some (r, d) ∧ pos d = false := by
      obtain ⟨r, d, h1, h2, h3⟩ := hex
      exact ⟨r, h1, d, h2, h3⟩
    obtain ⟨h1, d, h2, h3⟩ := Nat.find_spec hP
    have hmin : ∀ i, i < Nat.find hP → ¬ (i < a.n ∧ ∃ d, (a.row i).getLast? = some (i, d) ∧ pos d = false) :=
      fun i hi => Nat.find_min hP hi
    obtain ⟨r, hr⟩ : ∃ r, r = Nat.find hP := ⟨_, rfl⟩
    rw [← hr] at h1 h2 hmin
    unfold ic0Csr
    rw [forRange_split _ (Nat.zero_le r) (by omega : r ≤ a.n)]
    -- the rows before the first failing one
    have hpre : wp (forRange 0 r (row A pos a.p a.i) a.x) (Inv A a (List.range r)) := by
      refine forRange_wp (fun k x => Inv A a (List.range k) x) (Nat.zero_le r) ?_ ?_
      · exact ⟨rfl, fun i k _ _ _ => by simp, fun k _ => rfl⟩
      · intro k x _ hk hI
        rw [List.range_succ]
        refine row_wp hR hx hI (by omega) (by simp) (fun v hv => ?_)
        by_contra hc
        exact hmin k hk ⟨by omega, v, hval k v (by omega) hv, by simpa using hc⟩
    obtain ⟨x, e1, e2⟩ := wp_iff.1 hpre
    rw [e1, ok_bind]
    have hne := row_nonempty h2
    have hd : x[a.pat.ptr (r + 1) - 1]? = some d := by
      rw [e2.inside r _ h1 (by omega) (by omega), if_neg (by simp)]
      have := last_x hm.wf h1 h2
      unfold rdZ at this
      rw [if_neg (by omega), show ((a.pat.ptr (r + 1) : Int) - 1).toNat = a.pat.ptr (r + 1) - 1 by omega] at this
      unfold rd at this
      cases hv : a.x[a.pat.ptr (r + 1) - 1]? with
      | none => rw [hv] at this; cases this
      | some v => rw [hv] at this; cases this; rfl
    have hrow : row A pos a.p a.i r x = exn := by
      show row A pos a.pat.p a.pat.i r x = exn
      rw [row_eq hR A pos h1]
      unfold rootOf rd
      rw [hd]
      simp only [ok_bind]
      rw [h3]
      rfl
    obtain ⟨q, hq⟩ : ∃ q, a.n - r = q + 1 := ⟨a.n - r - 1, by omega⟩
    unfold forRange
    rw [hq, forN, hrow]
    rfl

theorem ofComplete {s : Sched} {n : Nat} (hp : s.PtrsOk n) (hc : s.Complete n) : s.Valid n (fun _ _ => False) :=
  ⟨hp, hc, fun _ _ h => h.elim⟩

/-- **C111, `spic0_csr_lbc`.** Any complete schedule, every interleaving. -/
theorem C111_lbc (A : IcArith V) (hm : a.LowerCsr) (hs : a.pat.Sorted) {s : Sched} (hp : s.PtrsOk a.n)
    (hc : s.Complete a.n) :
    ∃ xs, RowsScaled A a xs ∧ AlwaysGives (fun sch => lbc A a.p a.i s sch a.x) xs := by
  have hR := rows hm hs
  have hN := Sched.nestedOk (ofComplete hp hc) (fun _ _ h => h.elim)
  obtain ⟨xs, h1, h2⟩ := levelLoop_rows (A := A) hR hm.wf.xlen hN (ptr := s.levelPtr) (thread := fun j1 => do
      let lo ← rd s.partPtr j1
      let hi ← rd s.partPtr (j1 + 1)
      Mach.seqCode lo hi (fun k => do
        let i ← rd s.nodes k
        rowCode a.p a.i i)) (by
    intro l hl
    obtain ⟨parts, h1, h2⟩ := hp
    have hlen1 := h1.len
    have hlen2 := h2.len
    have hnl := nodes_len hc
    refine ⟨_, _, rd_getD 0 (by omega), rd_getD 0 (by omega), ?_⟩
    rw [Ic0.parCodes_eq (c := fun q => codeI a.pat (partRows s q)) (h1.dmono hl), partsOf, List.map_map]
    · rfl
    · intro q hq1 hq2
      have hqp : q < parts := by have := h1.dle (b := l + 1) hl; omega
      rw [rd_getD 0 (by omega), rd_getD 0 (by omega)]
      simp only [ok_bind]
      rw [Ic0.seqCode_eq (c := fun k => rowI a.pat (s.nodes.getD k 0)) (h2.dmono hqp),
        flatMap_slice_eq (by have := h2.dle (b := q + 1) hqp; omega)]
      · rfl
      · intro k hk1 hk2
        obtain ⟨i, hi1, hi2⟩ := partRows_lt h2 hc hqp hk1 hk2
        rw [rd, hi1]
        simp only [ok_bind, List.getD_eq_getElem?_getD, hi1, Option.getD_some]
        exact rowCode_eq hR hi2)
  exact ⟨xs, h1.rowsScaled hm.wf, h2⟩

/-- **C111, `spic0_csr_levelset`.** Any complete level set, every interleaving. -/
theorem C111_levelset (A : IcArith V) (hm : a.LowerCsr) (hs : a.pat.Sorted) {levels : Nat} {levelPtr levelSet : List Nat}
    (hp : PtrOk levelPtr levels a.n) (hc : levelSet.Perm (List.range a.n)) :
    ∃ xs, RowsScaled A a xs ∧ AlwaysGives (fun sch => levelset A a.p a.i levels levelPtr levelSet sch a.x) xs := by
  have hR := rows hm hs
  have hN := Sched.nestedOk (ofLevels_valid (dep := fun _ _ => False) hp hc (fun _ _ _ _ h => h.elim)) (fun _ _ h => h.elim)
  have hlen : levelSet.length = a.n := by simpa using hc.length_eq
  obtain ⟨xs, h1, h2⟩ := levelLoop_rows (A := A) hR hm.wf.xlen hN (ptr := levelPtr) (thread := fun k => do
      let i ← rd levelSet k
      rowCode a.p a.i i) (by
    intro l hl
    have hlp := hp.len
    refine ⟨_, _, rd_getD 0 (by show l < levelPtr.length; change l < levels at hl; omega),
      rd_getD 0 (by show l + 1 < levelPtr.length; change l < levels at hl; omega), ?_⟩
    rw [Ic0.parCodes_eq (c := fun k => codeI a.pat (partRows (Sched.ofLevels levels levelPtr levelSet) k))
      (hp.dmono hl), partsOf, List.map_map]
    · rfl
    · intro k hk1 hk2
      have hkn : k < a.n := by have := hp.dle (b := l + 1) hl; omega
      have hk' : k < levelSet.length := by omega
      have hget : levelSet.getD k 0 = levelSet[k] := by simp [hk']
      have e1 : levelSet.getD k 0 < a.n := by
        rw [hget]
        exact List.mem_range.1 (hc.mem_iff.1 (List.getElem_mem hk'))
      have e2 : partRows (Sched.ofLevels levels levelPtr levelSet) k = [levelSet.getD k 0] := by
        simp only [partRows, Sched.ofLevels]
        rw [getD_range (by omega), getD_range (by omega), slice_one hk', hget]
      rw [rd_getD 0 (by omega)]
      simp only [ok_bind]
      refine (rowCode_eq hR e1).trans ?_
      rw [e2]
      simp [codeI])
  exact ⟨xs, h1.rowsScaled hm.wf, h2⟩

/-- **C111, negative.** In exact arithmetic the result is not a Cholesky factor: if a row has a positive diagonal entry
and another entry that is not zero, the sum of the squares of the result in that row, which is the diagonal entry of
the product of the result with its transpose, is larger than the diagonal entry of the matrix. -/
theorem C111_not_factor {a : Mat ℝ} {x : List ℝ} (hx : RowsScaled Ic0.realIc a x) {r : Nat}
    (hr : r < a.n) {d : ℝ} (hd : (a.row r).getLast? = some (r, d)) (hpos : 0 < d)
    (hne : ∃ e ∈ a.off r, e.2 ≠ 0) : d < (((a.withX x).row r).map (fun e => e.2 * e.2)).sum := by
  rw [hx.2 r r d hr hd, List.map_append, List.sum_append, List.map_map]
  have hroot : Real.sqrt d * Real.sqrt d = d := Real.mul_self_sqrt hpos.le
  have hs : 0 < Real.sqrt d := Real.sqrt_pos.2 hpos
  have h1 : 0 < ((a.off r).map ((fun e : Nat × ℝ => e.2 * e.2) ∘ fun e => (e.1, Ic0.realIc.dv e.2 (Ic0.realIc.root d)))).sum := by
    obtain ⟨e, he, h0⟩ := hne
    have hnn : ∀ y ∈ (a.off r).map ((fun e : Nat × ℝ => e.2 * e.2) ∘ fun e => (e.1, Ic0.realIc.dv e.2 (Ic0.realIc.root d))),
        0 ≤ y := by
      intro y hy
      obtain ⟨z, _, rfl⟩ := List.mem_map.1 hy
      exact mul_self_nonneg _
    have hmem : (e.2 / Real.sqrt d) * (e.2 / Real.sqrt d) ∈ (a.off r).map
        ((fun e : Nat × ℝ => e.2 * e.2) ∘ fun e => (e.1, Ic0.realIc.dv e.2 (Ic0.realIc.root d))) :=
      List.mem_map.2 ⟨e, he, rfl⟩
    have := List.single_le_sum hnn _ hmem
    have hp : 0 < (e.2 / Real.sqrt d) * (e.2 / Real.sqrt d) :=
      mul_self_pos.2 (div_ne_zero h0 hs.ne')
    linarith
  simp only [List.map_cons, List.map_nil, List.sum_cons, List.sum_nil, add_zero]
  show d < _ + Real.sqrt d * Real.sqrt d
  rw [hroot]
  linarith

/-! ### Examples -/

/-- The hypotheses hold for the matrix `exMat` of the solver examples with other values; the rows are scaled. -/
def exRows : Mat Int := ⟨4, [0, 1, 2, 5, 7], [0, 1, 0, 1, 2, 2, 3], [4, 9, 8, 12, 16, 10, 25]⟩

theorem exRows_lower : exRows.LowerCsr := by
  refine ⟨⟨⟨by decide, by decide, by decide, by decide, by decide⟩, by decide⟩, ?_, ?_⟩
  · intro r hr
    have : r < 4 := hr
    have : r = 0 ∨ r = 1 ∨ r = 2 ∨ r = 3 := by omega
    rcases this with rfl | rfl | rfl | rfl
    · exact ⟨4, by decide⟩
    · exact ⟨9, by decide⟩
    · exact ⟨16, by decide⟩
    · exact ⟨25, by decide⟩
  · show ∀ r, r < 4 → _
    decide

example : exRows.LowerCsr ∧ exRows.pat.Sorted ∧
    ic0Csr Ic0.exIcArith (fun v => decide (0 < v)) 4 exRows.p exRows.i exRows.x = ok [2, 3, 2, 3, 4, 2, 5] ∧
    ic0Csr Ic0.exIcArith (fun v => decide (10 < v)) 4 exRows.p exRows.i exRows.x = exn ∧
    levelset Ic0.exIcArith exRows.p exRows.i 1 [0, 4] [3, 2, 1, 0]
      (fun _ => (List.range 100).map (· % 4)) exRows.x = ok [2, 3, 2, 3, 4, 2, 5] ∧
    lbc Ic0.exIcArith exRows.p exRows.i exSched
      (fun _ => (List.range 100).map (· % 4)) exRows.x = ok [2, 3, 2, 3, 4, 2, 5] :=
  ⟨exRows_lower, by unfold Csc.Sorted; decide, by decide +kernel, by decide +kernel, by decide +kernel, by decide +kernel⟩

/-- Without sorted rows S3 can be executed (row 1 has the columns 1, 0): the guard of C111 is needed. -/
example : ic0Csr Ic0.exIcArith (fun _ => true) 2 [0, 1, 3] [0, 1, 0] [4, 6, 9] = ok [2, -2, 3] ∧
    ¬ RowsScaled Ic0.exIcArith ⟨2, [0, 1, 3], [0, 1, 0], [4, 6, 9]⟩ [2, -2, 3] := by
  refine ⟨by decide +kernel, fun h => ?_⟩
  have := h.2 1 0 9 (by decide) (by decide)
  revert this
  decide +kernel

end Verif.Ic0r
