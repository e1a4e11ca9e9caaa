import Verif.Proof.FusedRun

/-!
# C100, C101: level sets over supernodes, `level_set_bn` and `bcsc_csc_bcsc_levelset`
-/

namespace Verif.FLevel
open Res MLevel Kahn Csc Hdagg

/-! ## General facts about level sets of a relation -/

section Levels
variable {P : Nat → Prop} {E : Nat → Nat → Prop} {L k : Nat} {ptr levels : List Nat}

theorem longest_unique {x a b : Nat} (ha : LongestTo P E x a) (hb : LongestTo P E x b) : a = b :=
  Nat.le_antisymm (hb.2 a ha.1) (ha.2 b hb.1)

/-- A dependence leads from a level to a later one. -/
theorem levels_edge (h : LevelsBy P E L k ptr levels) {u x a b : Nat} (he : E u x) (ha : a < L) (hb : b < L)
    (hu : InLevel ptr levels a u) (hx : InLevel ptr levels b x) : a < b := by
  have h1 := (h.exact a u ha).1 hu
  have h2 := (h.exact b x hb).1 hx
  exact h2.2 (a + 1) (.snoc h1.1 he)

theorem path_increasing (hE : ∀ u x, E u x → u < x) {m x : Nat} (h : PathEnd P E m x) : m ≤ x := by
  induction h with
  | nil _ => omega
  | snoc _ he ih => have := hE _ _ he; omega

theorem longest_exists (hE : ∀ u x, E u x → u < x) {x : Nat} (hx : P x) : ∃ m, LongestTo P E x m := by
  classical
  have hb : ∀ m, PathEnd P E m x → m ≤ x := fun m h => path_increasing hE h
  refine ⟨Nat.findGreatest (fun m => PathEnd P E m x) x, ?_, fun m hm => Nat.le_findGreatest (hb m hm) hm⟩
  exact Nat.findGreatest_spec (P := fun m => PathEnd P E m x) (Nat.zero_le x) (.nil hx)

/-- If all dependences lead to larger numbers then every node is in one of the levels. -/
theorem levels_all (h : LevelsBy P E L k ptr levels) (hE : ∀ u x, E u x → u < x) {x : Nat} (hx : P x) :
    ∃ l, l < L ∧ InLevel ptr levels l x := by
  obtain ⟨m, hm⟩ := longest_exists hE hx
  exact ⟨m, h.all m x hm, (h.exact m x (h.all m x hm)).2 hm⟩

theorem inLevel_mem (h : LevelsBy P E L k ptr levels) {l x : Nat} (hl : l < L) (hx : InLevel ptr levels l x) :
    x ∈ levels.take k := by
  obtain ⟨j, hj, hx⟩ := hx
  have h1 := (h.ptrOk.inBlock_iff hl).1 hj
  have h2 := h.ptrOk.dle (b := l + 1) (by omega)
  rw [List.mem_iff_getElem?]
  exact ⟨j, by rw [List.getElem?_take, if_pos (by omega), hx]⟩

theorem mem_inLevel (h : LevelsBy P E L k ptr levels) {x : Nat} (hx : x ∈ levels.take k) :
    ∃ l, l < L ∧ InLevel ptr levels l x := by
  obtain ⟨j, hj⟩ := List.mem_iff_getElem?.1 hx
  rw [List.getElem?_take] at hj
  split at hj
  · rename_i hlt
    obtain ⟨l, h1, h2, h3⟩ := h.ptrOk.exists_block hlt
    exact ⟨l, h1, j, (h.ptrOk.inBlock_iff h1).2 ⟨h2, h3⟩, hj⟩
  · cases hj

end Levels

/-! ## C100 -/

section
variable {g : Csc} {nodes K : Nat}

/-- **C100**: `level_set_bn` for a lower triangular matrix computes the level sets of `K` copies of the
dependences between the supernodes, as far as the first columns of the supernodes show them. -/
theorem C100_level_set_bn (hwf : g.WF) {super : List Nat} (hp : PtrOk super nodes g.n)
    (hst : ∀ t, t < nodes → super.getD t 0 < super.getD (t + 1) 0) (hK : 0 < K)
    (hbig : K = 1 ∨ ∀ c, c < g.n → (g.col c).length ≤ 16843008) :
    ∃ L ptr levels k, bnLower g.n g.p g.i super nodes K = ok (L, ptr, levels) ∧ levels.length = K * nodes ∧
      LevelsBy (CopyNode g.n K (IsHead super nodes))
        (CopyEdge g.n K (IsHead super nodes) (HeadEdge g super nodes)) L k ptr levels := by
  have hl := hp.len
  obtain ⟨sup, s1, s2, s3⟩ := wp_iff.1 (supersFirst_spec hp)
  have hh := heads_first hwf hp hst s3
  obtain ⟨L, ptr, levels, k, h1, h2, h3⟩ := bn_spec (super := super) (nodes := nodes) hh hK rfl (by omega)
    (hbig.imp_right (fun h c hc => by
      have h4 := h c (hh.lt c hc)
      have h5 := hwf.col_length (hh.lt c hc)
      unfold belowHeads
      rw [List.length_map, List.length_tail]
      omega))
    (over := overBelow g.p g.i sup) (fun c hc f s => overBelow_eq hwf s2 (hh.lt c hc) f s)
    (overS := overBelow g.p g.i sup) (fun c hc f s => overBelow_eq hwf s2 (hh.lt c hc) f s)
  refine ⟨L, ptr, levels, k, ?_, h2, ?_⟩
  · unfold bnLower
    rw [if_neg (by omega), s1, ok_bind]
    exact h1
  · have e1 : (· ∈ super.take nodes) = IsHead super nodes := by
      funext x; exact propext mem_take_iff
    have e2 : ColEdge (super.take nodes) (belowHeads g sup) = HeadEdge g super nodes := by
      funext c d; exact propext (colEdge_first hwf hp hst s3)
    rw [e1, e2] at h3
    exact h3

/-- **C100**: the branch for upper triangular matrices; here a supernode is represented by its last column, and
all entries of this column are followed. -/
theorem C100_level_set_bn_upper (hwf : g.WF) {super : List Int} (hb : BackOk super nodes g.n) (hK : 0 < K)
    (hbig : K = 1 ∨ ∀ c, c < g.n → (g.col c).length < 16843008) :
    ∃ L ptr levels k, bnUpper g.n g.p g.i super nodes K = ok (L, ptr, levels) ∧ levels.length = K * nodes ∧
      LevelsBy (CopyNode g.n K (IsTail super nodes))
        (CopyEdge g.n K (IsTail super nodes) (TailEdge g super nodes)) L k ptr levels := by
  have hl := back_len hb
  obtain ⟨sup, s1, s2, s3⟩ := wp_iff.1 (supersLast_spec hb)
  have hh := heads_last hwf hb s3
  obtain ⟨L, ptr, levels, k, h1, h2, h3⟩ := bn_spec (super := super.map Int.toNat) (nodes := nodes) hh hK rfl
    (by rw [List.length_map]; omega)
    (hbig.imp_right (fun h c hc => by
      have h4 := h c (hh.lt c hc)
      unfold allHeads
      rw [List.length_map, List.length_reverse]
      exact h4))
    (over := overAll g.p g.i sup) (fun c hc f s => overAll_eq hwf s2 (hh.lt c hc) f s)
    (overS := overAll g.p g.i sup) (fun c hc f s => overAll_eq hwf s2 (hh.lt c hc) f s)
  refine ⟨L, ptr, levels, k, ?_, h2, ?_⟩
  · unfold bnUpper
    rw [if_neg (by omega), if_neg, s1, ok_bind]
    · exact h1
    · simp only [List.any_eq_true, decide_eq_true_eq, not_exists, not_and]
      intro a ha
      rw [List.mem_iff_getElem?] at ha
      obtain ⟨t, ht⟩ := ha
      rw [List.getElem?_take] at ht
      split at ht
      · rename_i hlt
        rw [back_get hb (by omega)] at ht
        have := back_bound hb hlt
        simp only [Option.some.injEq] at ht
        omega
      · cases ht
  · have e1 : (· ∈ (super.map Int.toNat).take nodes) = IsTail super nodes := by
      funext x; exact propext (mem_tails hb)
    have e2 : ColEdge ((super.map Int.toNat).take nodes) (allHeads g sup) = TailEdge g super nodes := by
      funext c d; exact propext (colEdge_last hwf hb s3)
    rw [e1, e2] at h3
    exact h3

/-- **C100**: copy `q` of a supernode is `q` levels after its first copy. -/
theorem C100_copies {n : Nat} {P : Nat → Prop} {E : Nat → Nat → Prop} (hP : ∀ c, P c → c < n)
    (hE : ∀ c d, E c d → P c ∧ P d) {c q m : Nat} (hc : P c) (hq : q < K) :
    LongestTo (CopyNode n K P) (CopyEdge n K P E) (c + n * q) (m + q) ↔ LongestTo P E c m := by
  have hup : ∀ m c, PathEnd P E m c → PathEnd (CopyNode n K P) (CopyEdge n K P E) m (c + n * 0) := by
    intro m c h
    induction h with
    | nil h => exact .nil ⟨_, 0, h, by omega, rfl⟩
    | snoc _ he ih => exact .snoc ih (.inl ⟨_, _, 0, he, by omega, rfl, rfl⟩)
  have hup' : ∀ q m c, P c → q < K → PathEnd P E m c →
      PathEnd (CopyNode n K P) (CopyEdge n K P E) (m + q) (c + n * q) := by
    intro q
    induction q with
    | zero => intro m c _ _ h; exact hup m c h
    | succ q ih =>
      intro m c hc hq h
      exact .snoc (ih m c hc (by omega) h) (.inr ⟨c, q, hc, hq, rfl, rfl⟩)
  have hdown : ∀ m c q, P c → PathEnd (CopyNode n K P) (CopyEdge n K P E) m (c + n * q) →
      ∃ j, j ≤ q ∧ j ≤ m ∧ PathEnd P E (m - j) c := by
    intro m
    induction m with
    | zero => intro c q hc _; exact ⟨0, by omega, by omega, .nil hc⟩
    | succ m ih =>
      intro c q hc h
      cases h with
      | snoc h he =>
        rcases he with ⟨b, d, r, h1, h2, rfl, h4⟩ | ⟨b, r, h1, h2, rfl, h4⟩
        · obtain ⟨rfl, rfl⟩ := idx_inj (hP c hc) (hP d (hE b d h1).2) h4
          obtain ⟨j, a1, a2, a3⟩ := ih b q (hE b c h1).1 h
          exact ⟨j, a1, by omega, by rw [show m + 1 - j = m - j + 1 by omega]; exact .snoc a3 h1⟩
        · obtain ⟨rfl, rfl⟩ := idx_inj (hP c hc) (hP b h1) h4
          obtain ⟨j, a1, a2, a3⟩ := ih c r hc h
          exact ⟨j + 1, by omega, by omega, by rw [show m + 1 - (j + 1) = m - j by omega]; exact a3⟩
  constructor
  · rintro ⟨h1, h2⟩
    obtain ⟨j, a1, a2, a3⟩ := hdown _ _ _ hc h1
    have := h2 _ (hup' q _ c hc hq a3)
    obtain rfl : j = q := by omega
    rw [Nat.add_sub_cancel] at a3
    refine ⟨a3, fun m' hm' => ?_⟩
    have := h2 _ (hup' j _ c hc hq hm')
    omega
  · rintro ⟨h1, h2⟩
    refine ⟨hup' q m c hc hq h1, fun m' hm' => ?_⟩
    obtain ⟨j, a1, a2, a3⟩ := hdown _ _ _ hc hm'
    have := h2 _ a3
    omega

/-- In a lower triangular matrix the dependences lead to larger columns. -/
theorem headEdge_lt {n : Nat} {super : List Nat} (hp : PtrOk super nodes n)
    (hlow : ∀ c, c < n → ∀ r ∈ g.col c, c ≤ r) {c d : Nat}
    (hst : ∀ t, t < nodes → super.getD t 0 < super.getD (t + 1) 0)
    (h : HeadEdge g super nodes c d) : c < d ∧ c < n ∧ d < n := by
  obtain ⟨⟨s, s1, s2⟩, hne, r, hr, hd⟩ := h
  obtain ⟨t, t1, rfl, t3, t4⟩ := (headOf_iff hp).1 hd
  have e : super.getD s 0 = c := by rw [List.getD_eq_getElem?_getD, s2]; rfl
  have h1 := hst s s1
  have h2 := hp.dle (b := s + 1) (by omega)
  have h3 := hst t t1
  have h4 := hp.dle (b := t + 1) (by omega)
  have h5 := hlow c (by omega) r (List.mem_of_mem_tail hr)
  refine ⟨?_, by omega, by omega⟩
  rcases Nat.lt_trichotomy s t with h | h | h
  · have := hp.dmono_le (a := s) (b := t) (by omega) (by omega); omega
  · subst h; omega
  · have := hp.dmono_le (a := t + 1) (b := s) (by omega) (by omega); omega

theorem isHead_lt {n : Nat} {super : List Nat} (hp : PtrOk super nodes n)
    (hst : ∀ t, t < nodes → super.getD t 0 < super.getD (t + 1) 0) {c : Nat} (h : IsHead super nodes c) : c < n := by
  obtain ⟨s, s1, s2⟩ := h
  have e : super.getD s 0 = c := by rw [List.getD_eq_getElem?_getD, s2]; rfl
  have h1 := hst s s1
  have h2 := hp.dle (b := s + 1) (by omega)
  omega

theorem headOf_isHead {super : List Nat} {r c : Nat} (h : HeadOf super nodes r c) : IsHead super nodes c := by
  obtain ⟨t, h1, h2, _⟩ := h
  exact ⟨t, h1, h2⟩

/-- **C100**: for a lower triangular matrix every copy of every supernode is listed exactly once.  If the first
columns of the supernodes show all dependences, then a supernode and all supernodes that need it are in different
levels, in the right order, in every copy. -/
theorem C100_schedule (hwf : g.WF) {super : List Nat} (hp : PtrOk super nodes g.n)
    (hst : ∀ t, t < nodes → super.getD t 0 < super.getD (t + 1) 0) (hK : 0 < K)
    (hbig : K = 1 ∨ ∀ c, c < g.n → (g.col c).length ≤ 16843008)
    (hlow : ∀ c, c < g.n → ∀ r ∈ g.col c, c ≤ r)
    (hnest : ∀ c d, c ≠ d → BlockEdge g super nodes c d → HeadEdge g super nodes c d) :
    ∃ L ptr levels, bnLower g.n g.p g.i super nodes K = ok (L, ptr, levels) ∧ ptr.length = L + 1 ∧
      PtrOk ptr L (K * nodes) ∧ levels.length = K * nodes ∧ levels.Nodup ∧
      (∀ x, x ∈ levels ↔ ∃ c q, IsHead super nodes c ∧ q < K ∧ x = c + g.n * q) ∧
      (∀ c d q, BlockEdge g super nodes c d → c ≠ d → q < K → ∀ a b, a < L → b < L →
        InLevel ptr levels a (c + g.n * q) → InLevel ptr levels b (d + g.n * q) → a < b) ∧
      (∀ c q, IsHead super nodes c → q + 1 < K → ∀ a b, a < L → b < L →
        InLevel ptr levels a (c + g.n * q) → InLevel ptr levels b (c + g.n * (q + 1)) → a < b) := by
  obtain ⟨L, ptr, levels, k, h1, h2, h3⟩ := C100_level_set_bn hwf hp hst hK hbig
  have hinc : ∀ u x, CopyEdge g.n K (IsHead super nodes) (HeadEdge g super nodes) u x → u < x := by
    rintro u x (⟨c, d, q, h4, h5, rfl, rfl⟩ | ⟨c, q, h4, h5, rfl, rfl⟩)
    · have := (headEdge_lt hp hlow hst h4).1; omega
    · have := isHead_lt hp hst h4
      have : g.n * (q + 1) = g.n * q + g.n := by rw [Nat.mul_add, Nat.mul_one]
      omega
  have hall : ∀ x, CopyNode g.n K (IsHead super nodes) x → x ∈ levels.take k := by
    intro x hx
    obtain ⟨l, hl, hx⟩ := levels_all h3 hinc hx
    exact inLevel_mem h3 hl hx
  have hk : k = K * nodes := by
    have hroom := h3.room
    have hsub : copies g.n K (super.take nodes) ⊆ levels.take k := by
      intro x hx
      obtain ⟨c, q, h4, h5, rfl⟩ := mem_copies.1 hx
      exact hall _ ⟨c, q, mem_take_iff.1 h4, h5, rfl⟩
    obtain ⟨sup, _, _, s3⟩ := wp_iff.1 (supersFirst_spec hp)
    have hnd := copies_nodup (K := K) (heads_first hwf hp hst s3)
    have hle := (hnd.subperm hsub).length_le
    have hlen : (copies g.n K (super.take nodes)).length = K * nodes := by
      have := hp.len
      unfold copies
      rw [List.length_flatMap]
      have : min nodes super.length = nodes := by omega
      simp [this]
    rw [hlen, List.length_take] at hle
    omega
  have htake : levels.take k = levels := List.take_of_length_le (by omega)
  rw [htake] at hall
  refine ⟨L, ptr, levels, h1, h3.ptrLen, hk ▸ h3.ptrOk, h2, htake ▸ h3.nodup, fun x => ⟨fun hx => ?_, hall x⟩,
    fun c d q he hne hq a b ha hb hu hx => ?_, fun c q hc hq a b ha hb hu hx => ?_⟩
  · rw [← htake] at hx
    obtain ⟨l, hl, hx⟩ := mem_inLevel h3 hx
    have := (h3.exact l x hl).1 hx
    refine PathEnd.mem ?_ this.1
    rintro u x (⟨c, d, q, ⟨_, _, r, _, hd⟩, h5, rfl, rfl⟩ | ⟨c, q, h4, h5, rfl, rfl⟩)
    · exact ⟨d, q, headOf_isHead hd, h5, rfl⟩
    · exact ⟨c, q + 1, h4, h5, rfl⟩
  · exact levels_edge h3 (.inl ⟨c, d, q, hnest c d hne he, hq, rfl, rfl⟩) ha hb hu hx
  · exact levels_edge h3 (.inr ⟨c, q, hc, hq, rfl, rfl⟩) ha hb hu hx

/-- Four columns, the supernodes `{0, 1}`, `{2}`, `{3}`. -/
def exBn : Csc := ⟨4, [0, 3, 5, 7, 8], [0, 1, 2, 1, 2, 2, 3, 3]⟩

theorem exBn_wf : exBn.WF := ⟨by decide, by decide, by decide, by decide, by decide⟩

/-- Its supernodes. -/
def exSup : List Nat := [0, 2, 3, 4]

theorem exBn_super : PtrOk [0, 2, 3, 4] 3 exBn.n ∧
    ∀ t, t < 3 → [0, 2, 3, 4].getD t 0 < [0, 2, 3, 4].getD (t + 1) 0 :=
  ⟨PtrOk.mk' (by decide) (by decide) (by decide) (by decide), by decide⟩

/-- The hypotheses of `C100_level_set_bn` hold and the two copies of the three supernodes get four levels. -/
example : exBn.WF ∧ PtrOk [0, 2, 3, 4] 3 exBn.n ∧ (∀ c, c < exBn.n → (exBn.col c).length ≤ 16843008) ∧
    (∀ c, c < exBn.n → ∀ r ∈ exBn.col c, c ≤ r) ∧
    bnLower exBn.n exBn.p exBn.i [0, 2, 3, 4] 3 2 = ok (4, [0, 1, 3, 5, 6], [0, 2, 4, 3, 6, 7]) :=
  ⟨exBn_wf, exBn_super.1, by decide, by decide, by decide +kernel⟩

set_option synthInstance.maxHeartbeats 200000 in
set_option synthInstance.maxSize 1000 in
/-- The first columns of these supernodes show all dependences. -/
example : ∀ c d, c ≠ d → BlockEdge exBn [0, 2, 3, 4] 3 c d → HeadEdge exBn [0, 2, 3, 4] 3 c d := by
  have hp := exBn_super.1
  rintro c d hne ⟨j, r, hj, hr, hd⟩
  obtain ⟨t, t1, rfl, t3, t4⟩ := (headOf_iff hp).1 hj
  obtain ⟨s, s1, rfl, s3, s4⟩ := (headOf_iff hp).1 hd
  have hj4 : j < 4 := by
    have := hp.dle (b := t + 1) (by omega)
    have e : exBn.n = 4 := rfl
    omega
  unfold HeadEdge
  simp only [headOf_iff hp]
  have hr4 := exBn_wf.range j hj4 r hr
  have hrn : r < 4 := hr4
  refine ⟨⟨t, t1, hp.get (by omega)⟩, hne, ?_⟩
  have key : ∀ j < 4, ∀ r < 4, ∀ t < 3, ∀ s < 3, (r ∈ exBn.col j ∧
      exSup.getD t 0 ≤ j ∧ j < exSup.getD (t + 1) 0 ∧
      exSup.getD s 0 ≤ r ∧ r < exSup.getD (s + 1) 0 ∧
      exSup.getD t 0 ≠ exSup.getD s 0) →
      r ∈ (exBn.col (exSup.getD t 0)).tail := by decide
  exact ⟨r, key j hj4 r hrn t t1 s s1 ⟨hr, t3, t4, s3, s4, hne⟩, s, s1, rfl, s3, s4⟩

/-- The hypotheses of `C100_level_set_bn_upper` hold for the transposed matrix. -/
example : (⟨4, [0, 1, 3, 6, 8], [0, 0, 1, 0, 1, 2, 2, 3]⟩ : Csc).WF ∧ BackOk [3, 2, 1, -1] 3 4 ∧
    bnUpper 4 [0, 1, 3, 6, 8] [0, 0, 1, 0, 1, 2, 2, 3] [3, 2, 1, -1] 3 2
      = ok (4, [0, 1, 3, 5, 6], [3, 2, 7, 1, 6, 5]) := by
  refine ⟨⟨by decide, by decide, by decide, by decide, by decide⟩, ⟨rfl, rfl, fun t ht => ?_⟩, by decide +kernel⟩
  have : t = 0 ∨ t = 1 ∨ t = 2 := by omega
  rcases this with rfl | rfl | rfl
  · exact ⟨3, 2, rfl, rfl, by omega⟩
  · exact ⟨2, 1, rfl, rfl, by omega⟩
  · exact ⟨1, -1, rfl, rfl, by omega⟩

/-- **C100**, limit of the code: a dependence that only a later column of a supernode shows is lost.  Row 2 needs
column 1 of the supernode `{0, 1}`, but both supernodes are in the first level. -/
theorem C100_later_columns_lost : ∃ g : Csc, ∃ super, g.WF ∧ PtrOk super 2 g.n ∧
    (∀ c, c < g.n → ∀ r ∈ g.col c, c ≤ r) ∧ BlockEdge g super 2 0 2 ∧
    bnLower g.n g.p g.i super 2 1 = ok (1, [0, 2], [0, 2]) :=
  ⟨⟨3, [0, 2, 4, 5], [0, 1, 1, 2, 2]⟩, [0, 2, 3], ⟨by decide, by decide, by decide, by decide, by decide⟩,
    PtrOk.mk' (by decide) (by decide) (by decide) (by decide), by decide,
    ⟨1, 2, ⟨0, by decide, rfl, 0, 2, rfl, rfl, by decide, by decide⟩, by decide,
      ⟨1, by decide, rfl, 2, 3, rfl, rfl, by decide, by decide⟩⟩, by decide +kernel⟩

/-- **C100**, limit of the code: without copies the array `degrees` is empty and is written. -/
theorem C100_no_copies (n : Nat) (Lp Li super : List Nat) (nodes : Nat) : bnLower n Lp Li super nodes 0 = ub := rfl

end

/-! ## C101 -/

section
variable {A B C : Csc} {nodes : Nat} {super : List Nat}

/-- **C101**: `bcsc_csc_bcsc_levelset` computes the level sets of the supernodes of both kernels, where a
supernode of the second kernel without any dependence is never ready. -/
theorem C101_fused_levels (hA : A.WF) (hB : B.WF) (hC : C.WF) (hBn : B.n = A.n) (hCn : C.n = A.n)
    (hp : PtrOk super nodes A.n)
    (hst : ∀ t, t < nodes → super.getD t 0 < super.getD (t + 1) 0) :
    ∃ L ptr levels k, fused A.n A B C nodes super = ok (L, ptr, levels) ∧ levels.length = 2 * nodes ∧
      LevelsBy (FusedNode A.n super nodes) (StuckEdge A.n A B C super nodes) L k ptr levels :=
  fused_spec hA hB hC hBn hCn hp hst

theorem stuck_eq (h : ∀ x, ¬ Orphan A.n A B C super nodes x) :
    StuckEdge A.n A B C super nodes = FusedEdge A.n A B C super nodes := by
  funext u x
  refine propext ⟨?_, .inl⟩
  rintro (h1 | ⟨_, h1⟩)
  · exact h1
  · exact absurd h1 (h u)

theorem orphan_paths {n : Nat} {x : Nat} (h : Orphan n A B C super nodes x) (m : Nat) :
    PathEnd (FusedNode n super nodes) (StuckEdge n A B C super nodes) m x := by
  induction m with
  | zero =>
    obtain ⟨⟨c, hc, rfl⟩, _⟩ := h
    exact .nil ⟨c, hc, .inr rfl⟩
  | succ m ih => exact .snoc ih (.inr ⟨rfl, h⟩)

/-- Whatever is reached from a node with endless paths has endless paths. -/
theorem path_trans {P : Nat → Prop} {E : Nat → Nat → Prop} {x y : Nat} (h : Relation.ReflTransGen E x y)
    (hx : ∀ m, PathEnd P E m x) (hE : ∀ u x, E u x → P x) : ∀ m, PathEnd P E m y := by
  induction h with
  | refl => exact hx
  | tail _ he ih =>
    intro m
    exact PathEnd.drop hE (.snoc (ih m) he)

theorem stuck_node {u x : Nat} (h : StuckEdge A.n A B C super nodes u x) :
    FusedNode A.n super nodes x := by
  rcases h with (⟨_, _, r, _, h⟩ | ⟨d, ⟨j, r, _, _, h⟩, rfl⟩ | ⟨c, d, ⟨_, _, r, _, h⟩, rfl, rfl⟩) | ⟨rfl, ⟨c, h, rfl⟩, _⟩
  · exact ⟨x, headOf_isHead h, .inl rfl⟩
  · exact ⟨d, headOf_isHead h, .inr rfl⟩
  · exact ⟨d, headOf_isHead h, .inr rfl⟩
  · exact ⟨c, h, .inr rfl⟩

/-- **C101**, limit of the code: a supernode of the second kernel into which no dependence leads, and everything
that depends on it, is missing in the level sets. -/
theorem C101_orphans_missing (hA : A.WF) (hB : B.WF) (hC : C.WF) (hBn : B.n = A.n) (hCn : C.n = A.n)
    (hp : PtrOk super nodes A.n)
    (hst : ∀ t, t < nodes → super.getD t 0 < super.getD (t + 1) 0) {x y : Nat}
    (hx : Orphan A.n A B C super nodes x) (hxy : Relation.ReflTransGen (FusedEdge A.n A B C super nodes) x y) :
    ∃ L ptr levels, fused A.n A B C nodes super = ok (L, ptr, levels) ∧
      ∀ l, l < L → ¬ InLevel ptr levels l y := by
  obtain ⟨L, ptr, levels, k, h1, _, h3⟩ := C101_fused_levels hA hB hC hBn hCn hp hst
  refine ⟨L, ptr, levels, h1, fun l hl hy => ?_⟩
  have := (h3.exact l y hl).1 hy
  have hpath := path_trans (E := StuckEdge A.n A B C super nodes) (Relation.ReflTransGen.mono (fun a b h => Or.inl h) _ _ hxy) (orphan_paths hx)
    (fun u x h => stuck_node h) (l + 1)
  have := this.2 _ hpath
  omega

/-- **C101**: for lower triangular matrices and a matrix `B` with an entry in the rows of every supernode, all
supernodes of both kernels are listed exactly once.  The dependences of the second kernel on the first one are
kept; the dependences inside the kernels are kept if the first columns of the supernodes show them. -/
theorem C101_schedule (hA : A.WF) (hB : B.WF) (hC : C.WF) (hBn : B.n = A.n) (hCn : C.n = A.n)
    (hp : PtrOk super nodes A.n)
    (hst : ∀ t, t < nodes → super.getD t 0 < super.getD (t + 1) 0)
    (hlA : ∀ c, c < A.n → ∀ r ∈ A.col c, c ≤ r) (hlC : ∀ c, c < A.n → ∀ r ∈ C.col c, c ≤ r)
    (hrow : ∀ d, IsHead super nodes d → ∃ c, BlockEdge B super nodes c d) :
    ∃ L ptr levels, fused A.n A B C nodes super = ok (L, ptr, levels) ∧ ptr.length = L + 1 ∧
      PtrOk ptr L (2 * nodes) ∧ levels.length = 2 * nodes ∧ levels.Nodup ∧
      (∀ x, x ∈ levels ↔ ∃ c, IsHead super nodes c ∧ (x = c ∨ x = c + A.n)) ∧
      (∀ a b c d, a < L → b < L → BlockEdge B super nodes c d →
        InLevel ptr levels a c → InLevel ptr levels b (d + A.n) → a < b) ∧
      (∀ a b c d, a < L → b < L → HeadEdge A super nodes c d →
        InLevel ptr levels a c → InLevel ptr levels b d → a < b) ∧
      (∀ a b c d, a < L → b < L → HeadEdge C super nodes c d →
        InLevel ptr levels a (c + A.n) → InLevel ptr levels b (d + A.n) → a < b) := by
  obtain ⟨L, ptr, levels, k, h1, h2, h3⟩ := C101_fused_levels hA hB hC hBn hCn hp hst
  have hno : ∀ x, ¬ Orphan A.n A B C super nodes x := by
    rintro x ⟨⟨d, hd, rfl⟩, h⟩
    obtain ⟨c, hc⟩ := hrow d hd
    exact h c (.inr (.inl ⟨d, hc, rfl⟩))
  rw [stuck_eq hno] at h3
  have hlt : ∀ c d, HeadOf super nodes c d → d < A.n := fun c d h => isHead_lt hp hst (headOf_isHead h)
  have hinc : ∀ u x, FusedEdge A.n A B C super nodes u x → u < x := by
    rintro u x (h | ⟨d, ⟨j, r, hj, _, hd⟩, rfl⟩ | ⟨c, d, h, rfl, rfl⟩)
    · exact (headEdge_lt hp hlA hst h).1
    · have := hlt j u hj; omega
    · have := (headEdge_lt hp hlC hst h).1; omega
  have hall : ∀ x, FusedNode A.n super nodes x → x ∈ levels.take k := by
    intro x hx
    obtain ⟨l, hl, hx⟩ := levels_all h3 hinc hx
    exact inLevel_mem h3 hl hx
  have hk : k = 2 * nodes := by
    have hroom := h3.room
    have hsub : bothHeads A.n (super.take nodes) ⊆ levels.take k := by
      intro x hx
      obtain ⟨c, h4, h5⟩ := mem_both.1 hx
      exact hall _ ⟨c, mem_take_iff.1 h4, h5⟩
    obtain ⟨sup, _, _, s3⟩ := wp_iff.1 (supersFirst_spec hp)
    have hnd := both_nodup (heads_first hA hp hst s3)
    have hle := (hnd.subperm hsub).length_le
    have hl := hp.len
    have hlen : (bothHeads A.n (super.take nodes)).length = 2 * nodes := by
      unfold bothHeads
      rw [List.length_append, List.length_map, List.length_take]; omega
    rw [hlen, List.length_take] at hle
    omega
  have htake : levels.take k = levels := List.take_of_length_le (by omega)
  rw [htake] at hall
  refine ⟨L, ptr, levels, h1, h3.ptrLen, hk ▸ h3.ptrOk, h2, htake ▸ h3.nodup, fun x => ⟨fun hx => ?_, hall x⟩,
    fun a b c d ha hb he hu hx => levels_edge h3 (.inr (.inl ⟨d, he, rfl⟩)) ha hb hu hx,
    fun a b c d ha hb he hu hx => levels_edge h3 (.inl he) ha hb hu hx,
    fun a b c d ha hb he hu hx => levels_edge h3 (.inr (.inr ⟨c, d, he, rfl, rfl⟩)) ha hb hu hx⟩
  rw [← htake] at hx
  obtain ⟨l, hl, hx⟩ := mem_inLevel h3 hx
  have hm := ((h3.exact l x hl).1 hx).1
  exact PathEnd.mem (P := FusedNode A.n super nodes) (fun u y h => stuck_node (.inl h)) hm

/-- The identity. -/
def exId : Csc := ⟨4, [0, 1, 2, 3, 4], [0, 1, 2, 3]⟩

theorem exId_wf : exId.WF := ⟨by decide, by decide, by decide, by decide, by decide⟩

/-- The hypotheses of `C101_schedule` hold. -/
example : exBn.WF ∧ exId.WF ∧ exId.n = exBn.n ∧ PtrOk [0, 2, 3, 4] 3 exBn.n ∧
    (∀ d, IsHead [0, 2, 3, 4] 3 d → ∃ c, BlockEdge exId [0, 2, 3, 4] 3 c d) ∧
    fused 4 exBn exId exBn 3 [0, 2, 3, 4] = ok (4, [0, 1, 3, 5, 6], [0, 2, 4, 3, 6, 7]) := by
  refine ⟨exBn_wf, exId_wf, rfl, exBn_super.1, ?_, by decide +kernel⟩
  rintro d ⟨t, ht, hd⟩
  refine ⟨d, d, d, ⟨t, ht, hd, ?_⟩, ?_, ⟨t, ht, hd, ?_⟩⟩
  all_goals
    have : t = 0 ∨ t = 1 ∨ t = 2 := by omega
    rcases this with rfl | rfl | rfl <;> cases hd
  · exact ⟨0, 2, rfl, rfl, by decide, by decide⟩
  · exact ⟨2, 3, rfl, rfl, by decide, by decide⟩
  · exact ⟨3, 4, rfl, rfl, by decide, by decide⟩
  · decide
  · decide
  · decide
  · exact ⟨0, 2, rfl, rfl, by decide, by decide⟩
  · exact ⟨2, 3, rfl, rfl, by decide, by decide⟩
  · exact ⟨3, 4, rfl, rfl, by decide, by decide⟩

/-- **C101**, limit of the code: the row 0 of `B` is empty, so the first supernode of the second kernel is an
orphan; the second one needs it.  Both are missing, the result still has four places and the last two hold 0. -/
theorem C101_orphan_witness : ∃ A B C : Csc, ∃ super, A.WF ∧ B.WF ∧ C.WF ∧ B.n = A.n ∧ C.n = A.n ∧
    PtrOk super 2 A.n ∧ Orphan A.n A B C super 2 2 ∧
    fused A.n A B C 2 super = ok (1, [0, 2], [0, 1, 0, 0]) := by
  have hp : PtrOk [0, 1, 2] 2 2 := PtrOk.mk' (by decide) (by decide) (by decide) (by decide)
  refine ⟨⟨2, [0, 1, 2], [0, 1]⟩, ⟨2, [0, 0, 1], [1]⟩, ⟨2, [0, 2, 3], [0, 1, 1]⟩, [0, 1, 2],
    ⟨by decide, by decide, by decide, by decide, by decide⟩, ⟨by decide, by decide, by decide, by decide, by decide⟩,
    ⟨by decide, by decide, by decide, by decide, by decide⟩, rfl, rfl, hp, ⟨⟨0, ⟨0, by decide, rfl⟩, rfl⟩, ?_⟩,
    by decide +kernel⟩
  have hst : ∀ t, t < 2 → [0, 1, 2].getD t 0 < [0, 1, 2].getD (t + 1) 0 := by decide
  rintro u (h | ⟨d, ⟨j, r, hj, hr, hd⟩, h⟩ | ⟨c, d, h, rfl, h'⟩)
  · have := (headEdge_lt (n := 2) hp (by decide) hst h).2.2; omega
  · obtain ⟨t, t1, rfl, t3, t4⟩ := (headOf_iff hp).1 hj
    obtain ⟨s, s1, rfl, s3, s4⟩ := (headOf_iff hp).1 hd
    have hj2 : j < 2 := by have := hp.dle (b := t + 1) (by omega); omega
    have hr2 : r = 1 := by
      have : ∀ j, j < 2 → ∀ r ∈ (⟨2, [0, 0, 1], [1]⟩ : Csc).col j, r = 1 := by decide
      exact this j hj2 r hr
    subst hr2
    have : s = 0 := by
      have : ∀ s, s < 2 → 2 = [0, 1, 2].getD s 0 + 2 → s = 0 := by decide
      exact this s s1 h
    subst this
    simp at s4
  · obtain rfl : d = 0 := by
      simp only at h'
      omega
    have := (headEdge_lt (n := 2) hp (by decide) hst h).1; omega

end

end Verif.FLevel
