import Verif.Proof.BcscCompress
import Verif.Proof.SuperDag

/-!
# C59: the blocked matrix format
-/

namespace Verif
open Res Bcsc

variable {V : Type} {m : Mat V}

/-- **C59.** For every partition of the columns into `nodes ≤ n` consecutive blocks (given by the user),
`BCSCMatrix` stores the matrix in blocks: the index and the value at each position are those of the
matrix, with zeros where the matrix has no entry.  The columns must be sorted and the last diagonal
entry must be stored. -/
theorem C59_blocked_format (hm : m.WF) (zero : V) (hs : ∀ j, j < m.n → (m.pat.col j).Pairwise (· < ·))
    (hlast : ∀ j, j + 1 = m.n → j ∈ m.pat.col j) {nodes : Nat} {super : List Nat}
    (hp : PtrOk super nodes m.n) (hn : nodes ≤ m.n) :
    ∃ B, generate zero m nodes super = ok B ∧ B.nodes = nodes ∧ B.super = super ∧
      IsBlocked zero m nodes super B.nrows B.p B.i B.x := by
  refine wp_iff.1 (generate_wp hm zero hs hp hn ?_)
  intro s j hs' h1 h2
  have hb : super.getD (s + 1) 0 ≤ m.n := hp.dle (b := s + 1) (by omega)
  have h4 : m.pat.ptr m.n ≤ m.i.length := hm.pat.bound
  by_cases hj : j + 1 = m.n
  · right
    intro r hr
    obtain ⟨j', _, h, hr'⟩ := (mem_blockRows hm.pat hb).1 hr
    have : r < m.n := hm.pat.range j' (show j' < m.n by omega) r hr'
    exact ⟨j, hlast j hj, by omega⟩
  · left
    have hj' : m.n - 1 < m.n := by omega
    obtain ⟨k, hk1, hk2, _⟩ := (hm.pat.mem_col (u := m.n - 1) hj').1 (hlast (m.n - 1) (by omega))
    have hk1 : m.pat.ptr (m.n - 1) ≤ k := hk1
    have hk2 : k < m.pat.ptr (m.n - 1 + 1) := hk2
    rw [show m.n - 1 + 1 = m.n by omega] at hk2
    have : m.pat.ptr (j + 1) ≤ m.pat.ptr (m.n - 1) := hm.pat.mono_le (by omega) hj'.le
    omega

/-- **C59.** Nothing of the matrix is left out: outside the rows of a block the matrix is zero. -/
theorem C59_nothing_lost (hm : m.WF) (zero : V) {a b : Nat} (hb : b ≤ m.n) {r j : Nat} (hj1 : a ≤ j)
    (hj2 : j < b) (hr : r ∉ blockRows m.pat a b) : m.entry zero r j = zero := by
  refine entry_none hm (by omega) ?_
  intro h
  exact hr ((mem_blockRows hm.pat hb).2 ⟨j, hj1, hj2, h⟩)

/-- The rows of a supernode are the rows of its first column. -/
theorem C59_supernode_rows {g : Csc} (hg : g.WF) (hs : ∀ j, j < g.n → (g.col j).Pairwise (· < ·)) {a b : Nat}
    (hab : a < b) (hb : b ≤ g.n) (h : ∀ c, a < c → c < b → NestedCols g a c) :
    blockRows g a b = g.col a := by
  refine sorted_ext blockRows_sorted (hs a (by omega)) ?_
  intro r
  rw [mem_blockRows hg hb]
  constructor
  · rintro ⟨j, h1, h2, h3⟩
    by_cases hj : a = j
    · subst hj; exact h3
    · obtain ⟨l, _, he⟩ := h j (by omega) h2
      rw [he]; exact List.mem_append_right _ h3
  · intro hr
    exact ⟨a, le_refl _, hab, hr⟩

/-- **C59.** The constructor `BCSCMatrix(A)` finds the supernodes of the columns and stores the matrix
in these blocks.  The columns must be sorted and not empty. -/
theorem C59_constructor (hm : m.WF) (zero : V) (hs : ∀ j, j < m.n → (m.pat.col j).Pairwise (· < ·))
    (hne : ∀ j, j < m.n → m.pat.col j ≠ []) :
    ∃ ptr B, Super.supernodes m.n m.n true m.p m.i = ok (ptr.map (fun (v : Nat) => (v : Int))) ∧
      generate zero m (ptr.length - 1) ptr = ok B ∧
      IsSupernodes (NestedCols m.pat) m.n (m.n + 1) ptr ∧
      IsBlocked zero m (ptr.length - 1) ptr B.nrows B.p B.i B.x ∧
      ∀ s a, s < ptr.length - 1 → ptr[s]? = some a → B.nrows[s]? = some (m.pat.col a).length := by
  obtain ⟨l, h1, ptr, h2, h3⟩ := wp_iff.1 (Super.supernodesLower_wp (g := m.pat) hm.pat (m.n : Int))
  have h3 : IsSupernodes (NestedCols m.pat) m.n (m.n + 1) ptr := by
    have : Super.blockLimit m.pat.n (m.n : Int) = m.n + 1 := by
      unfold Super.blockLimit
      split
      · rfl
      · simp
    rw [this] at h3; exact h3
  have hp := h3.ptrOk
  have hstrict : ∀ k, k ≤ ptr.length - 1 → k ≤ ptr.getD k 0 := by
    intro k
    induction k with
    | zero => intro _; omega
    | succ k ih =>
      intro hk
      have := ih (by omega)
      have := h3.strict (s := k) (by omega)
      omega
  have hn : ptr.length - 1 ≤ m.n := by
    have := hstrict (ptr.length - 1) (le_refl _)
    rw [hp.dlast] at this
    exact this
  have hrows : ∀ s, s < ptr.length - 1 → rowsOf m ptr s = m.pat.col (ptr.getD s 0) := by
    intro s hs'
    obtain ⟨r1, _, r2, _⟩ := h3.range s _ _ (hp.get (b := s) (by omega)) (hp.get (b := s + 1) (by omega))
    exact C59_supernode_rows hm.pat hs r1 (hp.dle (b := s + 1) (by omega)) r2
  obtain ⟨B, g1, g2, g3, g4⟩ := wp_iff.1 (generate_wp hm zero hs hp hn (by
    intro s j hs' hj1 hj2
    right
    intro r hr
    have hb : ptr.getD (s + 1) 0 ≤ m.n := hp.dle (b := s + 1) (by omega)
    rw [hrows s hs'] at hr
    obtain ⟨r1, _, r2, _⟩ := h3.range s _ _ (hp.get (b := s) (by omega)) (hp.get (b := s + 1) (by omega))
    by_cases hj : ptr.getD s 0 = j
    · subst hj; exact ⟨r, hr, le_refl _⟩
    · obtain ⟨l', _, he⟩ := r2 j (by omega) hj2
      have hsa := hs (ptr.getD s 0) (by omega)
      rw [he] at hr hsa
      rcases List.mem_append.1 hr with hr | hr
      · obtain ⟨x, hx⟩ := List.exists_mem_of_ne_nil _ (hne j (by omega))
        exact ⟨x, hx, ((List.pairwise_append.1 hsa).2.2 r hr x hx).le⟩
      · exact ⟨r, hr, le_refl _⟩))
  refine ⟨ptr, B, by rw [← h2]; exact h1, g1, h3, g4, ?_⟩
  intro s a hs' ha
  have hb := hp.get (b := s + 1) (by omega)
  have := g4.nrows s hs' a _ ha hb
  rw [this]
  have e : ptr.getD s 0 = a := by rw [List.getD_eq_getElem?_getD, ha]; rfl
  have := hrows s hs'
  unfold rowsOf at this
  rw [e] at this
  rw [this]

/-- **C59**, limit of the code: `compressed_BCSC_to_CSC` always writes past the end of its index array
(it counts the entries of the blocks but then writes one more per block). -/
theorem C59_compress_ub (zero : V) {B : Blocked V} (hp : PtrOk B.super B.nodes m.n)
    (hB : IsBlocked zero m B.nodes B.super B.nrows B.p B.i B.x) (hw : ∀ s, s < B.nodes →
      B.super.getD s 0 < B.super.getD (s + 1) 0) (hn : 0 < B.nodes) : compress m.n B = ub := by
  refine compress_ub ?_ hp hn
  have hpget : ∀ s, s ≤ B.nodes → ∃ o, B.p[s]? = some o := by
    intro s
    induction s with
    | zero => intro _; exact ⟨0, hB.first⟩
    | succ s ih =>
      intro hs
      obtain ⟨o, ho⟩ := ih (by omega)
      exact ⟨_, hB.next s (by omega) _ _ o (hp.get (b := s) (by omega)) (hp.get (b := s + 1) (by omega)) ho⟩
  intro s hs
  obtain ⟨o, ho⟩ := hpget s (by omega)
  have ha := hp.get (b := s) (by omega)
  have hb := hp.get (b := s + 1) (by omega)
  refine ⟨_, o, hB.nrows s hs _ _ ha hb, ho, ?_⟩
  intro k hk
  have h1 := (hB.entry s hs _ _ o ha hb ho (B.super.getD s 0) k _ (le_refl _) (hw s hs)
    (List.getElem?_eq_getElem hk)).1
  rw [Nat.sub_self, Nat.zero_mul, Nat.add_zero] at h1
  refine ⟨_, h1, ?_⟩
  exact List.mem_range.1 (List.mem_filter.1 (List.getElem_mem hk)).1

/-- A lower triangular matrix with the supernodes `{0, 1}` and `{2}`. -/
def exBlocked : Mat Int := ⟨3, [0, 3, 5, 6], [0, 1, 2, 1, 2, 2], [4, 1, 2, 5, 3, 6]⟩

example : generate 0 exBlocked 2 [0, 2, 3] =
    ok ⟨2, [0, 2, 3], [3, 1], [0, 6, 7, 0], [0, 1, 2, 0, 1, 2, 2], [4, 1, 2, 0, 5, 3, 6]⟩ := by decide +kernel

example : exBlocked.WF ∧ (∀ j, j < 3 → (exBlocked.pat.col j).Pairwise (· < ·) ∧ exBlocked.pat.col j ≠ []) := by
  refine ⟨⟨⟨by decide, by decide, by decide, by decide, by decide⟩, by decide⟩, by decide⟩

example : PtrOk [0, 2, 3] 2 3 := PtrOk.mk' (by decide) rfl rfl (by decide)

example : compress 3 (⟨2, [0, 2, 3], [3, 1], [0, 6, 7, 0], [0, 1, 2, 0, 1, 2, 2], [4, 1, 2, 0, 5, 3, 6]⟩ :
    Blocked Int) = ub := by decide +kernel

/-- **C59**, limit of the code: without the last diagonal entry the row index behind the matrix is read. -/
theorem C59_read_past_end : generate (0 : Int) ⟨2, [0, 2, 3], [0, 1, 0], [1, 2, 3]⟩ 1 [0, 2] = ub := by
  decide +kernel

/-- **C59**, limit of the code: an empty column at the end of a supernode that the library found. -/
theorem C59_empty_column_ub : Super.supernodes 2 2 true [0, 1, 1] [0] = ok [0, 2] ∧
    generate (0 : Int) ⟨2, [0, 1, 1], [0], [7]⟩ 1 [0, 2] = ub := by decide +kernel

/-- **C59**, limit of the code: with an unsorted column entries are lost (`4` here). -/
theorem C59_unsorted_loses : generate (0 : Int) ⟨2, [0, 2, 3], [1, 0, 1], [1, 4, 5]⟩ 2 [0, 1, 2] =
    ok ⟨2, [0, 1, 2], [2, 1], [0, 2, 3], [0, 1, 1], [0, 1, 5]⟩ := by decide +kernel

end Verif
