import Verif.Model.SmallUtil
import Verif.Proof.SparsePerm
import Verif.Proof.Bridge

/-!
# Lemmas: small matrix utilities
-/

namespace Verif.SmallU
open Res Sp

variable {V : Type}

/-! ### Matrices given by their columns -/

section
variable (R : Nat → List (Nat × V))

/-- The arrays of `A` hold the columns `R 0 .. R (n-1)`. -/
structure HasCols (n : Nat) (A : Sp V) : Prop where
  cols : A.cols = n
  plen : A.p.length = n + 1
  ptr : ∀ c, c ≤ n → A.p.getD c 0 = tot R c
  idx : A.i.take (tot R n) = (List.range n).flatMap fun c => (R c).map Prod.fst
  val : A.x.take (tot R n) = (List.range n).flatMap fun c => (R c).map Prod.snd

theorem tot_map {α β : Type} (R : Nat → List α) (f : α → β) (n : Nat) : tot (fun c => (R c).map f) n = tot R n := by
  unfold tot
  rw [List.length_flatMap, List.length_flatMap]
  simp

variable {R}

theorem HasCols.colRows {n : Nat} {A : Sp V} (h : HasCols R n A) {c : Nat} (hc : c < n) :
    A.colRows c = (R c).map Prod.fst := by
  have := slice_flatMap (fun c => (R c).map Prod.fst) hc (l := A.i) (by rw [tot_map]; exact h.idx)
  rw [tot_map, tot_map] at this
  unfold Sp.colRows
  rw [h.ptr c (by omega), h.ptr (c + 1) (by omega)]
  exact this

theorem HasCols.colVals {n : Nat} {A : Sp V} (h : HasCols R n A) {c : Nat} (hc : c < n) :
    A.colVals c = (R c).map Prod.snd := by
  have := slice_flatMap (fun c => (R c).map Prod.snd) hc (l := A.x) (by rw [tot_map]; exact h.val)
  rw [tot_map, tot_map] at this
  unfold Sp.colVals
  rw [h.ptr c (by omega), h.ptr (c + 1) (by omega)]
  exact this

theorem HasCols.wf {n : Nat} {A : Sp V} (h : HasCols R n A) (hr : ∀ c, c < n → ∀ e ∈ R c, e.1 < A.rows) : A.WF := by
  have hl : ∀ {α : Type} (l : List α) (f : Nat × V → α), l.take (tot R n) = (List.range n).flatMap
      (fun c => (R c).map f) → tot R n ≤ l.length := by
    intro α l f hl
    have := congrArg List.length hl
    rw [show ((List.range n).flatMap fun c => (R c).map f).length = tot (fun c => (R c).map f) n from rfl, tot_map,
      List.length_take] at this
    omega
  have hc := h.cols
  refine ⟨⟨by rw [h.plen, hc], ?_, ?_, ?_, ?_⟩, ?_⟩
  · rw [h.ptr 0 (by omega)]; rfl
  · intro c hc'
    rw [h.ptr c (by omega), h.ptr (c + 1) (by omega), tot_succ]; omega
  · rw [hc, h.ptr n (by omega)]; exact hl _ _ h.idx
  · intro c hc' r hr'
    rw [h.colRows (by omega), List.mem_map] at hr'
    obtain ⟨e, he, rfl⟩ := hr'
    exact hr c (by omega) e he
  · rw [hc, h.ptr n (by omega)]; exact hl _ _ h.val

theorem zip_fst_snd (l : List (Nat × V)) : (l.map Prod.fst).zip (l.map Prod.snd) = l := by
  induction l with
  | nil => rfl
  | cons a l ih => rw [List.map_cons, List.map_cons, List.zip_cons_cons, ih]

theorem HasCols.mem_entries {n : Nat} {A : Sp V} (h : HasCols R n A) {r c : Nat} {v : V} :
    (r, c, v) ∈ A.entries ↔ c < n ∧ (r, v) ∈ R c := by
  unfold entries
  rw [List.mem_flatMap]
  constructor
  · rintro ⟨c', hc', hm⟩
    rw [List.mem_range, h.cols] at hc'
    rw [h.colRows hc', h.colVals hc', zip_fst_snd, List.mem_map] at hm
    obtain ⟨e, he, heq⟩ := hm
    simp only [Prod.mk.injEq] at heq
    obtain ⟨rfl, rfl, rfl⟩ := heq
    exact ⟨hc', he⟩
  · rintro ⟨hc', hm⟩
    refine ⟨c, List.mem_range.2 (by rw [h.cols]; exact hc'), ?_⟩
    rw [h.colRows hc', h.colVals hc', zip_fst_snd, List.mem_map]
    exact ⟨_, hm, rfl⟩

end

/-! ### `tridiag` -/

section
variable [Zero V]

/-- Column `c` of the tridiagonal matrix. -/
def triCol (n : Nat) (a0 a1 a2 : V) (c : Nat) : List (Nat × V) :=
  if c = 0 then [(0, a1), (1, a2)]
  else if c + 1 = n then [(c - 1, a0), (c, a1)]
  else [(c - 1, a0), (c, a1), (c + 1, a2)]

omit [Zero V] in
theorem triCol_tot {n : Nat} (hn : 2 ≤ n) (a0 a1 a2 : V) : ∀ c, c ≤ n →
    tot (triCol n a0 a1 a2) c = if c = 0 then 0 else if c = n then 3 * n - 2 else 3 * c - 1 := by
  intro c
  induction c with
  | zero => intro _; rfl
  | succ c ih =>
    intro hc
    rw [tot_succ, ih (by omega)]
    unfold triCol
    split_ifs <;> (try simp only [List.length_cons, List.length_nil]) <;> omega

omit [Zero V] in
/-- One more entry has been stored after the first `k`. -/
theorem put_wp {s : Tri V} {k r : Nat} {v : V} {I : List Nat} {X : List V} {L : Nat} {Q : Tri V → Prop}
    (h1 : s.i.length = L) (h2 : s.x.length = L) (h3 : s.i.take k = I) (h4 : s.x.take k = X) (hk : k < L)
    (hQ : ∀ i x, i.length = L → x.length = L → i.take (k + 1) = I ++ [r] → x.take (k + 1) = X ++ [v] →
      Q ⟨s.p, i, x, s.ind⟩) : wp (s.put k r v) Q := by
  unfold Tri.put
  rw [wr_eq (by omega), ok_bind, wr_eq (by omega), ok_bind, wp_ok]
  refine hQ _ _ (by simpa using h1) (by simpa using h2) ?_ ?_
  · rw [take_set_succ _ (by omega), h3]
  · rw [take_set_succ _ (by omega), h4]

theorem tridiag_wp {n : Nat} (hn : 2 ≤ n) (a0 a1 a2 : V) :
    wp (tridiag n a0 a1 a2) fun A => A.rows = n ∧ A.i.length = 3 * n - 2 ∧ A.x.length = 3 * n - 2 ∧
      HasCols (triCol n a0 a1 a2) n A := by
  unfold tridiag
  have hN : newPtrLen n = n + 1 := by unfold newPtrLen; rw [if_neg (by omega)]
  rw [if_neg (by omega), hN, wr_eq (by simp), ok_bind, wp_bind]
  have htot := triCol_tot hn a0 a1 a2
  have htl : ∀ c, c < n → tot (triCol n a0 a1 a2) c + (triCol n a0 a1 a2 c).length ≤ 3 * n - 2 := by
    intro c hc
    rw [← tot_succ, htot (c + 1) hc, if_neg (by omega)]
    split <;> omega
  refine forRange_wp' (fun c (s : Tri V) => s.p.length = n + 1 ∧
      (∀ a, a ≤ c → s.p.getD a 0 = tot (triCol n a0 a1 a2) a) ∧ s.ind = tot (triCol n a0 a1 a2) c ∧
      s.i.length = 3 * n - 2 ∧ s.x.length = 3 * n - 2 ∧
      s.i.take s.ind = ((List.range c).flatMap fun c => (triCol n a0 a1 a2 c).map Prod.fst) ∧
      s.x.take s.ind = (List.range c).flatMap fun c => (triCol n a0 a1 a2 c).map Prod.snd) (Nat.zero_le _) ?_ ?_ ?_
  · refine ⟨by simp, ?_, rfl, by simp, by simp, by simp, by simp⟩
    intro a ha
    have : a = 0 := by omega
    subst this
    rw [getD_set, if_pos ⟨rfl, by simp⟩]
    rfl
  · rintro c ⟨p, ix, xx, ind⟩ _ hc ⟨h1, h2, h3, h4, h5, h6, h7⟩
    dsimp only at h1 h2 h3 h4 h5 h6 h7 ⊢
    have hptr : ∀ (k : Nat), (triCol n a0 a1 a2 c).length = k → ∀ a, a ≤ c + 1 →
        (p.set (c + 1) (tot (triCol n a0 a1 a2) c + k)).getD a 0 = tot (triCol n a0 a1 a2) a := by
      intro k hk a ha
      rw [getD_set]
      split
      · rename_i h; rw [← h.1, tot_succ, hk]
      · exact h2 a (by omega)
    have hl := htl c hc
    have hfm : ∀ {β : Type} (f : Nat × V → β), ((List.range (c + 1)).flatMap fun c => (triCol n a0 a1 a2 c).map f)
        = ((List.range c).flatMap fun c => (triCol n a0 a1 a2 c).map f) ++ (triCol n a0 a1 a2 c).map f := by
      intro β f; rw [List.range_succ, List.flatMap_append]; simp
    subst h3
    by_cases h0 : c = 0
    · subst h0
      have hcol : triCol n a0 a1 a2 0 = [(0, a1), (1, a2)] := if_pos rfl
      have hlen : (triCol n a0 a1 a2 0).length = 2 := by rw [hcol]; rfl
      rw [if_pos (.inl rfl), rd_getD 0 (by omega), ok_bind, h2 0 (by omega), wr_eq (by omega), ok_bind, if_pos rfl,
        wp_bind, wp_bind]
      refine put_wp (s := ⟨_, _, _, _⟩) h4 h5 h6 h7 (by omega) fun i x k1 k2 k3 k4 => ?_
      refine put_wp (s := ⟨_, _, _, _⟩) k1 k2 k3 k4 (by dsimp only; omega) fun i x k1 k2 k3 k4 => ?_
      rw [wp_ok]
      refine ⟨by simpa using h1, hptr 2 hlen, by dsimp only; rw [tot_succ, hlen], k1, k2, ?_, ?_⟩
      · dsimp only at k3 ⊢
        rw [k3, hfm, hcol]; simp
      · dsimp only at k4 ⊢
        rw [k4, hfm, hcol]; simp
    · by_cases hl' : c + 1 = n
      · have hcol : triCol n a0 a1 a2 c = [(c - 1, a0), (c, a1)] := by
          unfold triCol; rw [if_neg h0, if_pos hl']
        have hlen : (triCol n a0 a1 a2 c).length = 2 := by rw [hcol]; rfl
        rw [if_pos (.inr hl'), rd_getD 0 (by omega), ok_bind, h2 c (by omega), wr_eq (by omega), ok_bind, if_neg h0,
          wp_bind, wp_bind]
        refine put_wp (s := ⟨_, _, _, _⟩) h4 h5 h6 h7 (by omega) fun i x k1 k2 k3 k4 => ?_
        refine put_wp (s := ⟨_, _, _, _⟩) k1 k2 k3 k4 (by dsimp only; omega) fun i x k1 k2 k3 k4 => ?_
        rw [wp_ok]
        refine ⟨by simpa using h1, hptr 2 hlen, by dsimp only; rw [tot_succ, hlen], k1, k2, ?_, ?_⟩
        · dsimp only at k3 ⊢
          rw [k3, hfm, hcol]; simp
        · dsimp only at k4 ⊢
          rw [k4, hfm, hcol]; simp
      · have hcol : triCol n a0 a1 a2 c = [(c - 1, a0), (c, a1), (c + 1, a2)] := by
          unfold triCol; rw [if_neg h0, if_neg hl']
        have hlen : (triCol n a0 a1 a2 c).length = 3 := by rw [hcol]; rfl
        rw [if_neg (by omega), rd_getD 0 (by omega), ok_bind, h2 c (by omega), wr_eq (by omega), ok_bind,
          wp_bind]
        refine put_wp (s := ⟨_, _, _, _⟩) h4 h5 h6 h7 (by omega) fun i x k1 k2 k3 k4 => ?_
        rw [wp_bind]
        refine put_wp (s := ⟨_, _, _, _⟩) k1 k2 k3 k4 (by dsimp only; omega) fun i x k1 k2 k3 k4 => ?_
        rw [wp_bind]
        refine put_wp (s := ⟨_, _, _, _⟩) k1 k2 k3 k4 (by dsimp only; omega) fun i x k1 k2 k3 k4 => ?_
        rw [wp_ok]
        refine ⟨by simpa using h1, hptr 3 hlen, by dsimp only; rw [tot_succ, hlen], k1, k2, ?_, ?_⟩
        · dsimp only at k3 ⊢
          rw [k3, hfm, hcol]; simp
        · dsimp only at k4 ⊢
          rw [k4, hfm, hcol]; simp
  · rintro ⟨p, ix, xx, ind⟩ ⟨h1, h2, h3, h4, h5, h6, h7⟩
    dsimp only at h1 h2 h3 h4 h5 h6 h7 ⊢
    rw [wp_ok]
    exact ⟨rfl, h4, h5, ⟨rfl, h1, h2, by rw [← h3]; exact h6, by rw [← h3]; exact h7⟩⟩

/-! ### `sparse2dense` -/

/-- The last value stored among the entries with property `q`. -/
def lastVal (l : List (Nat × Nat × V)) (q : Nat → Nat → Bool) : V :=
  ((l.filter fun e => q e.1 e.2.1).getLast?.map fun e => e.2.2).getD 0

theorem lastVal_snoc (l : List (Nat × Nat × V)) (e : Nat × Nat × V) (q : Nat → Nat → Bool) :
    lastVal (l ++ [e]) q = if q e.1 e.2.1 = true then e.2.2 else lastVal l q := by
  unfold lastVal
  rw [List.filter_append]
  by_cases h : q e.1 e.2.1 = true
  · rw [if_pos h, List.filter_cons_of_pos (by simpa using h)]
    simp
  · rw [if_neg h, List.filter_cons_of_neg (by simpa using h)]
    simp

theorem cell_inj {m r r' c c' : Nat} (hr : r < m) (hr' : r' < m) (h : c * m + r = c' * m + r') : c = c' ∧ r = r' := by
  have h1 : (c * m + r) / m = c := by
    rw [Nat.mul_comm, Nat.mul_add_div (by omega), Nat.div_eq_of_lt hr]; omega
  have h2 : (c' * m + r') / m = c' := by
    rw [Nat.mul_comm, Nat.mul_add_div (by omega), Nat.div_eq_of_lt hr']; omega
  have : c = c' := by rw [← h1, ← h2, h]
  subst this
  exact ⟨rfl, by omega⟩

theorem cell_lt {m n r c : Nat} (hr : r < m) (hc : c < n) : c * m + r < n * m := by
  have := Nat.mul_le_mul_right m (Nat.succ_le_of_lt hc)
  rw [Nat.succ_mul] at this
  omega

/-- Positions hit by an entry. -/
def hits (sym : Bool) (r c : Nat) (r' c' : Nat) : Bool :=
  decide (r' = r ∧ c' = c) || (sym && decide (r' = c ∧ c' = r))

theorem sparse2dense_wp {A : Sp V} (h : A.WF) {sym : Bool} (hsq : sym = true → A.rows = A.cols) {D : List V}
    (hD : A.cols * A.rows ≤ D.length) :
    wp (sparse2dense A sym D) fun D' => D'.length = D.length ∧ ∀ r c, r < A.rows → c < A.cols →
      D'.getD (c * A.rows + r) 0 = lastVal A.entries (hits sym r c) := by
  have hp := h.toPatWF
  unfold sparse2dense
  rw [wp_bind]
  refine forRange_wp' (fun k (D' : List V) => D'.length = D.length ∧ ∀ j, j < k → D'.getD j 0 = 0)
    (Nat.zero_le _) ⟨rfl, by omega⟩ ?_ ?_
  · intro k b _ hk ⟨h1, h2⟩
    rw [wr_eq (by omega), wp_ok]
    refine ⟨by simpa using h1, ?_⟩
    intro r hr
    rw [getD_set]
    split
    · rfl
    · exact h2 r (by omega)
  intro b ⟨h1, h2⟩
  have hw := forCols_wp hp (fun pre (D' : List V) => D'.length = D.length ∧ ∀ r c, r < A.rows → c < A.cols →
      D'.getD (c * A.rows + r) 0 = lastVal (pre.map fun e => (e.1.1, e.1.2, A.x.getD e.2 0)) (hits sym r c))
    (body := fun c j D => do
      let r ← rd A.i j
      let v ← rd A.x j
      let D ← wr D (c * A.rows + r) v
      if sym then wr D (r * A.cols + c) v else ok D) (s := b) ⟨h1, ?_⟩ ?_
  · refine wp_mono hw ?_
    rintro D' ⟨k1, k2⟩
    refine ⟨k1, fun r c hr hc => ?_⟩
    rw [k2 r c hr hc, entries_eq h]
  · intro r c hr hc
    rw [h2 _ (cell_lt hr hc)]
    rfl
  · rintro pre post r c j D' he hj hc hr ⟨k1, k2⟩
    have hrr : r < A.rows := tagged_rows hp ((r, c), j) (by rw [he]; simp)
    have hlt := cell_lt hrr hc
    rw [rd_i hr, ok_bind, rd_x (e := ((r, c), j)) h he hj, ok_bind, wr_eq (by omega), ok_bind]
    have hev : A.eVal ((r, c), j) = A.x.getD j 0 := rfl
    have key : ∀ r' c', r' < A.rows → c' < A.cols →
        (D'.set (c * A.rows + r) (A.x.getD j 0)).getD (c' * A.rows + r') 0
          = if r = r' ∧ c = c' then A.x.getD j 0 else D'.getD (c' * A.rows + r') 0 := by
      intro r' c' hr' hc'
      rw [getD_set]
      by_cases hh : r = r' ∧ c = c'
      · rw [if_pos hh, if_pos ⟨by rw [hh.1, hh.2], by omega⟩]
      · rw [if_neg hh, if_neg]
        rintro ⟨h', -⟩
        have := cell_inj hrr hr' h'
        exact hh ⟨this.2, this.1⟩
    cases sym with
    | false =>
      rw [if_neg (by simp), wp_ok]
      refine ⟨by simpa using k1, ?_⟩
      intro r' c' hr' hc'
      rw [hev, key r' c' hr' hc', List.map_append, List.map_cons, List.map_nil, lastVal_snoc, k2 r' c' hr' hc']
      simp [hits]
    | true =>
      have hs := hsq rfl
      have hcr : c < A.rows := by omega
      have hrc : r < A.cols := by omega
      have hlt' := cell_lt hcr hrc
      have hlt2 : r * A.cols + c < D'.length := by rw [← hs]; omega
      rw [if_pos rfl, wr_eq (by rw [List.length_set]; exact hlt2), wp_ok]
      refine ⟨by simpa using k1, ?_⟩
      intro r' c' hr' hc'
      rw [getD_set, hev, key r' c' hr' hc', List.map_append, List.map_cons, List.map_nil, lastVal_snoc,
        k2 r' c' hr' hc']
      dsimp only
      by_cases hh : r * A.cols + c = c' * A.rows + r'
      · rw [← hs] at hh
        have hi := cell_inj hcr hr' hh
        rw [if_pos ⟨by rw [← hs]; exact hh, by rw [List.length_set]; exact hlt2⟩, if_pos (by simp [hits, hi.1, hi.2])]
      · rw [if_neg (by tauto)]
        have hni : ¬(r = c' ∧ c = r') := by
          rintro ⟨rfl, rfl⟩
          exact hh (by rw [hs])
        by_cases he2 : r = r' ∧ c = c'
        · rw [if_pos he2, if_pos (by simp [hits, he2.1, he2.2])]
        · rw [if_neg he2, if_neg]
          simp only [hits, Bool.true_and, Bool.or_eq_true, decide_eq_true_eq]
          tauto

end

end Verif.SmallU
