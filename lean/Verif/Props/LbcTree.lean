import Verif.Proof.LbcTree
import Verif.Props.Lbc

/-!
# C68, C69: load-balanced level coarsening of a forest
-/

namespace Verif.LbcTree
open Res Lbc LevelSet Hdagg Verif.Tree Verif.Split

/-! ### C68 -/

/-- **C68.** For every number of parts, distance and divisor, `height_partitioning` terminates and cuts
the levels into non-empty windows; it gives every window at least one part, and never more than it was
asked for; windows after the first begin `minDist` levels before the top or earlier; their number grows with the
logarithm of the number of parts. -/
theorem C68_height_partitioning {L : Nat} {levelPtr : List Nat} (debug : Bool) (inner minDist divRate : Int)
    (hL : 0 < L) (hlen : L < levelPtr.length)
    (hmono : ∀ i, i < L → levelPtr.getD i 0 ≤ levelPtr.getD (i + 1) 0) :
    ∃ cnt bound sizes, heightPartition debug L levelPtr inner minDist divRate = ok (cnt, bound, sizes) ∧
      LevelCuts L cnt bound ∧ cnt ≤ sizes.length ∧ (∀ x ∈ sizes, 1 ≤ x ∧ (x : Int) ≤ max 1 inner) ∧
      (∀ w, 0 < w → w < cnt → bound.getD w 0 ≤ L - minDist) ∧
      ∀ q, inner < 2 * rate divRate ^ q → cnt ≤ q + 1 := by
  obtain ⟨⟨cnt, bound, sizes⟩, h, ho⟩ := wp_iff.1 (heightPartition_wp debug inner minDist divRate hL hlen hmono)
  refine ⟨cnt, bound, sizes, h, ho.cuts, ho.slen, ho.spos, ?_, fun q hq => heightPartition_count debug h hq⟩
  intro w h0 hw
  have hd := ho.dist (by dsimp only; omega)
  have hm := ho.cuts.mono (a := w) (b := cnt - 1) (by omega) (by omega)
  dsimp only at hd hm
  omega

/-- C68: six levels with 16, 12, 10, 9, 4 and 1 nodes. -/
example : heightPartition true 6 [0, 16, 28, 38, 47, 51, 52] 8 2 2
    = ok (3, [0, 2, 3, 7, 0, 0, 0], [8, 4, 2, 1]) := by decide +kernel

example : ∃ cnt bound sizes, heightPartition true 6 [0, 16, 28, 38, 47, 51, 52] 8 2 2 = ok (cnt, bound, sizes) ∧
    LevelCuts 6 cnt bound ∧ cnt ≤ sizes.length ∧ (∀ x ∈ sizes, 1 ≤ x ∧ (x : Int) ≤ max 1 8) ∧
      (∀ w, 0 < w → w < cnt → bound.getD w 0 ≤ (6 : Nat) - 2) ∧ ∀ q, 8 < 2 * rate 2 ^ q → cnt ≤ q + 1 :=
  C68_height_partitioning true 8 2 2 (by decide) (by decide) (by decide)

/-- **C68, finding.**  The vector of the numbers of parts gets an entry in every round, the array of
the bounds only in some: in this call there are three windows but four numbers, and the last window
gets two parts, not one. -/
theorem C68_sizes_misaligned :
    heightPartition false 6 [0, 16, 28, 38, 47, 51, 52] 8 2 2
      = ok (3, [0, 2, 3, 7, 0, 0, 0], [8, 4, 2, 1]) := by decide +kernel

/-! ### C69 -/

/-- **C69.** The LBC inspector for forests returns a schedule of all nodes in which every node comes
after all its descendants, if the read of `levelCost` behind its end is allowed.  For distances below 2, as in
the demo (-1), the forest must have more levels than there are windows. -/
theorem C69_forest_lbc {K : Type} [Add K] [LT K] [DecidableLT K] {n : Nat} {t : List Int} (hl : t.length = n)
    (hf : Forest n (parentOf t)) (hn : 1 < n) (hchain : ∀ v, ¬ IsHeight n (parentOf t) v (n - 1))
    {P : Params K} (hsort : ∀ l, (P.sort l).Perm l) {minDist : Int} (divRate : Int)
    (hg : 2 ≤ minDist ∨ P.innerParts ≤ 1 ∨ (∀ v k, IsHeight n (parentOf t) v k → k < 2) ∨
      ∃ q v k, P.innerParts < 2 * rate divRate ^ q ∧ IsHeight n (parentOf t) v k ∧ q < k)
    {nodeCost : List K} (hc : nodeCost.length = n) (zero : K) :
    ∃ s, coarsenTree P true n t minDist divRate nodeCost zero = ok s ∧
      s.Valid n (Relation.TransGen (ChildOf n (parentOf t))) ∧ s.nodes.length = n := by
  obtain ⟨s, h, h1⟩ := wp_iff.1 (coarsenTree_wp hl hf hn hchain hsort divRate hg hc zero)
  exact ⟨s, h, h1⟩

/-- The state after the steps of a loop that ends without an error. -/
theorem forRange_ok_step {σ : Type} {f : Nat → σ → Res σ} : ∀ {lo hi : Nat} {s s' : σ},
    forRange lo hi f s = ok s' → ∀ i, lo ≤ i → i < hi → ∃ a b, f i a = ok b := by
  have key : ∀ (c lo : Nat) (s s' : σ), forN c lo f s = ok s' → ∀ i, lo ≤ i → i < lo + c → ∃ a b, f i a = ok b := by
    intro c
    induction c with
    | zero => intro lo s s' _ i h1 h2; omega
    | succ c ih =>
      intro lo s s' h i h1 h2
      unfold forN at h
      cases hr : f lo s with
      | ok b =>
        rw [hr, ok_bind] at h
        rcases Nat.eq_or_lt_of_le h1 with rfl | hlt
        · exact ⟨s, b, hr⟩
        · exact ih (lo + 1) b s' h i hlt (by omega)
      | ub => rw [hr] at h; cases h
      | exn => rw [hr] at h; cases h
      | nofuel => rw [hr] at h; cases h
  intro lo hi s s' h i h1 h2
  exact key (hi - lo) lo s s' h i h1 (by omega)

theorem bind_ok {α β : Type} {x : Res α} {f : α → Res β} {b : β} (h : (x >>= f) = ok b) :
    ∃ a, x = ok a ∧ f a = ok b := by
  cases x with
  | ok a => exact ⟨a, rfl, h⟩
  | ub => cases h
  | exn => cases h
  | nofuel => cases h

theorem rd_none {α : Type} {l : List α} {i : Nat} {a : α} (h : rd l i = ok a) : i < l.length := by
  by_contra hlt
  unfold rd at h
  rw [List.getElem?_eq_none (by omega)] at h
  cases h

/-- If the inspector ends without an error, the last window has read the level `L`. -/
theorem last_level_read {K : Type} [Add K] [LT K] [DecidableLT K] {n : Nat} {t : List Int} (hl : t.length = n)
    (hf : Forest n (parentOf t)) (hn : 1 < n) {v k : Nat} (hk : IsHeight n (parentOf t) v k) (h2 : 2 ≤ k)
    (P : Params K) (past : Bool) (minDist divRate : Int) {nodeCost : List K} (hc : nodeCost.length = n)
    (zero : K) {s : Sched} (h : coarsenTree P past n t minDist divRate nodeCost zero = ok s) :
    ∃ (L : Nat) (ptr set n2l : List Nat) (levelCost : List K), LevelsOk n t L ptr set n2l ∧
      levelCost.length = L ∧ L + 1 < ptr.length ∧ (past = false → L < levelCost.length) := by
  unfold coarsenTree at h
  obtain ⟨⟨cnt, V⟩, h1, h⟩ := bind_ok h
  obtain ⟨_, h1', hV, hH⟩ := wp_iff.1 (windows_wp hl hf hn P minDist divRate)
  rw [h1] at h1'
  cases h1'
  dsimp only at hV hH h
  obtain ⟨_, -, h⟩ := bind_ok h
  obtain ⟨lc, h3, h⟩ := bind_ok h
  obtain ⟨_, h3', hlc⟩ := wp_iff.1 (levelCosts_wp P.debug hV.n2lLen hV.lt hc zero)
  rw [h3] at h3'
  cases h3'
  obtain ⟨_, h4, -⟩ := bind_ok h
  have hcp := hH.cuts.cnt_pos
  obtain ⟨a, b, h5⟩ := forRange_ok_step h4 (cnt - 1) (by omega) (by omega)
  unfold window at h5
  obtain ⟨_, -, h5⟩ := bind_ok h5
  obtain ⟨w, h6, h5⟩ := bind_ok h5
  obtain ⟨tmp, h7, -⟩ := bind_ok h5
  have hL : 2 < V.height := by
    have hv := (hk.1.lt hf).2
    have e := hV.height v hv
    have := hV.lt v hv
    have := e.2 k hk.1
    omega
  have hw : w.1 ≤ V.height ∧ w.2 = V.height + 1 := by
    have hin := hH.cuts.inner (cnt - 1) (by omega)
    have hov := hH.over hL
    have hlen := hH.cuts.len
    unfold bounds at h6
    rw [rd_getD 0 (by omega), ok_bind, rd_getD 0 (by omega), ok_bind] at h6
    rw [show cnt - 1 + 1 = cnt by omega] at h6
    split at h6
    · cases h6
    · cases h6
      dsimp only
      omega
  unfold windowTree at h7
  obtain ⟨a', b', h8⟩ := forRange_ok_step h7 V.height (by omega) (by omega)
  obtain ⟨_, h9, h8⟩ := bind_ok h8
  obtain ⟨_, -, h8⟩ := bind_ok h8
  obtain ⟨_, h10, -⟩ := bind_ok h8
  refine ⟨V.height, V.levelPtr, V.levelSet, V.node2Level, lc, hV, hlc, rd_none h10, ?_⟩
  rintro rfl
  rw [if_neg (by decide)] at h9
  obtain ⟨_, h11, -⟩ := bind_ok h9
  exact rd_none h11

/-- **C69, finding.**  In every forest with more than two levels, the inspector reads `levelCost` behind
its end. -/
theorem C69_reads_past_end {K : Type} [Add K] [LT K] [DecidableLT K] {n : Nat} {t : List Int}
    (hl : t.length = n) (hf : Forest n (parentOf t)) (hn : 1 < n) {v k : Nat}
    (hk : IsHeight n (parentOf t) v k) (h2 : 2 ≤ k) (P : Params K) (minDist divRate : Int) {nodeCost : List K}
    (hc : nodeCost.length = n) (zero : K) (s : Sched) :
    coarsenTree P false n t minDist divRate nodeCost zero ≠ ok s := by
  intro h
  obtain ⟨L, ptr, set, n2l, lc, -, e, -, e2⟩ := last_level_read hl hf hn hk h2 P false minDist divRate hc zero h
  have := e2 rfl
  omega

/-- **C69, finding.**  For a chain of more than two nodes it also reads `levelPtr` behind its end. -/
theorem C69_chain_fails {K : Type} [Add K] [LT K] [DecidableLT K] {n : Nat} {t : List Int}
    (hl : t.length = n) (hf : Forest n (parentOf t)) (hn : 2 < n) {v : Nat}
    (hk : IsHeight n (parentOf t) v (n - 1)) (P : Params K) (past : Bool) (minDist divRate : Int)
    {nodeCost : List K} (hc : nodeCost.length = n) (zero : K) (s : Sched) :
    coarsenTree P past n t minDist divRate nodeCost zero ≠ ok s := by
  intro h
  obtain ⟨L, ptr, set, n2l, lc, hV, -, e, -⟩ :=
    last_level_read hl hf (by omega) hk (by omega) P past minDist divRate hc zero h
  have hv := (hk.1.lt hf).2
  have h1 := (hV.height v hv).2 _ hk.1
  have h2 := hV.lt v hv
  have h3 := hV.ptrLen
  omega

/-- A forest of two trees with 10 nodes. -/
def exForest10 : List Int := [2, 2, 6, 5, 5, 6, -1, 9, 9, -1]

theorem exForest10_forest : Forest 10 (parentOf exForest10) := by
  have h : ∀ j, j < 10 → ∀ p ∈ (parentOf exForest10 j).toList, j < p ∧ p < 10 := by decide
  exact fun j p hj hp => h j hj p (by rw [hp]; simp)

theorem exForest10_chain {k v : Nat} (h : Chain 10 (parentOf exForest10) k v) :
    k ≤ [0, 0, 1, 0, 0, 1, 2, 0, 0, 1].getD v 0 := by
  have hst : ∀ u, u < 10 → ∀ v ∈ (parentOf exForest10 u).toList,
      [0, 0, 1, 0, 0, 1, 2, 0, 0, 1].getD u 0 + 1 ≤ [0, 0, 1, 0, 0, 1, 2, 0, 0, 1].getD v 0 := by decide
  induction h with
  | nil hv => omega
  | snoc _ hc ih =>
    rename_i k u v _
    have := hst u hc.1 v (by rw [hc.2]; simp)
    omega

theorem exForest10_height : IsHeight 10 (parentOf exForest10) 6 2 :=
  ⟨.snoc (u := 2) (.snoc (u := 0) (.nil (by decide)) ⟨by decide, by decide⟩) ⟨by decide, by decide⟩,
    fun _ h => exForest10_chain h⟩

/-- C69 for `exForest10`. -/
example : ∃ s, coarsenTree exParams true 10 exForest10 2 2 [1, 1, 1, 1, 1, 1, 1, 1, 1, 1] 0 = ok s ∧
    s.Valid 10 (Relation.TransGen (ChildOf 10 (parentOf exForest10))) ∧ s.nodes.length = 10 := by
  refine C69_forest_lbc (n := 10) (t := exForest10) rfl exForest10_forest (by decide) ?_ (P := exParams)
    (fun _ => .refl _) (minDist := 2) 2 (.inl (by decide)) rfl 0
  intro v h
  have h1 := exForest10_chain h.1
  have h2 : ∀ v, v < 10 → [0, 0, 1, 0, 0, 1, 2, 0, 0, 1].getD v 0 ≤ 2 := by decide
  have := h2 v (h.1.lt exForest10_forest).2
  omega

/-- What it returns: the two trees are two parts of one level. -/
example : coarsenTree exParams true 10 exForest10 2 2 [1, 1, 1, 1, 1, 1, 1, 1, 1, 1] 0
    = ok ⟨1, [0, 2, 0, 0, 0, 0, 0, 0, 0, 0, 0], [0, 7, 10, 0, 0, 0, 0, 0, 0, 0], [0, 1, 2, 3, 4, 5, 6, 7, 8, 9]⟩ := by
  decide +kernel

example (s : Sched) : coarsenTree exParams false 10 exForest10 2 2 [1, 1, 1, 1, 1, 1, 1, 1, 1, 1] 0 ≠ ok s :=
  C69_reads_past_end (t := exForest10) rfl exForest10_forest (by decide) exForest10_height (by decide) exParams 2 2 rfl 0 s

theorem forRange_congr {σ : Type} {f g : Nat → σ → Res σ} {lo hi : Nat}
    (h : ∀ i s, lo ≤ i → i < hi → f i s = g i s) (s : σ) : forRange lo hi f s = forRange lo hi g s := by
  have key : ∀ (c lo : Nat) (s : σ), (∀ i s, lo ≤ i → i < lo + c → f i s = g i s) →
      forN c lo f s = forN c lo g s := by
    intro c
    induction c with
    | zero => intro lo s _; rfl
    | succ c ih =>
      intro lo s hs
      unfold forN
      rw [hs lo s (Nat.le_refl _) (by omega)]
      congr 1
      funext a
      exact ih (lo + 1) a (fun i s h1 h2 => hs i s (by omega) (by omega))
  exact key (hi - lo) lo s (fun i s h1 h2 => h i s h1 (by omega))

/-- **C69.** With at most two levels nothing is read behind its end: the schedule is valid without
that allowance. -/
theorem C69_flat_forest {K : Type} [Add K] [LT K] [DecidableLT K] {n : Nat} {t : List Int} (hl : t.length = n)
    (hf : Forest n (parentOf t)) (hn : 2 < n) (hflat : ∀ v k, IsHeight n (parentOf t) v k → k < 2)
    {P : Params K} (hsort : ∀ l, (P.sort l).Perm l) (minDist divRate : Int)
    {nodeCost : List K} (hc : nodeCost.length = n) (zero : K) :
    ∃ s, coarsenTree P false n t minDist divRate nodeCost zero = ok s ∧
      s.Valid n (Relation.TransGen (ChildOf n (parentOf t))) ∧ s.nodes.length = n := by
  obtain ⟨s, h, h1⟩ := C69_forest_lbc hl hf (by omega)
    (fun v h => by have := hflat v _ h; omega) hsort (minDist := minDist) divRate (.inr (.inr (.inl hflat))) hc zero
  refine ⟨s, ?_, h1⟩
  rw [← h]
  unfold coarsenTree
  obtain ⟨⟨cnt, V⟩, hw, hV, hH⟩ := wp_iff.1 (windows_wp hl hf (by omega) P minDist divRate)
  dsimp only at hV hH
  rw [hw, ok_bind]
  obtain ⟨c, hsc, -⟩ := wp_iff.1 (subtreeCost_len hl hf hc)
  rw [hsc, ok_bind]
  obtain ⟨lc, hlc, hlen⟩ := wp_iff.1 (levelCosts_wp P.debug hV.n2lLen hV.lt hc zero)
  dsimp only at hlc ⊢
  simp only [hlc, ok_bind]
  obtain ⟨v0, hv0, htop⟩ := hV.top
  have hL : V.height ≤ 2 := by have := hflat v0 _ (hV.height v0 hv0); omega
  have hsm := (hH.small hL).1
  subst hsm
  have hwin : window P false n V.height t V nodeCost lc zero 0 = window P true n V.height t V nodeCost lc zero 0 := by
    funext s
    unfold window
    have hlen2 := hH.cuts.len
    have h0 := hH.cuts.first
    have hbd : bounds V.bound 0 = ok (0, V.height) := by
      unfold bounds
      rw [rd_getD 0 (by omega), ok_bind, rd_getD 0 (by omega), ok_bind, h0, hH.flat hL, if_neg (by omega)]
      rfl
    have hT : ∀ w : Nat × Nat, w.2 ≤ V.height → windowTree P.debug false n V.height t V nodeCost lc w.1 w.2
        = windowTree P.debug true n V.height t V nodeCost lc w.1 w.2 := by
      intro w hw
      unfold windowTree
      refine forRange_congr ?_ _
      intro i s h1 h2
      rw [if_neg (by decide), if_pos rfl, rd_eq (by omega)]
      rfl
    rw [hbd]
    simp only [ok_bind, hT (0, V.height) (Nat.le_refl _)]
  have : ∀ s, forRange 0 1 (window P false n V.height t V nodeCost lc zero) s
      = forRange 0 1 (window P true n V.height t V nodeCost lc zero) s := by
    intro s
    refine forRange_congr ?_ s
    intro i s _ hi
    obtain rfl : i = 0 := by omega
    rw [hwin]
  rw [this]

/-- A star with four nodes. -/
example : ∃ s, coarsenTree exParams false 4 [3, 3, 3, -1] 1 2 [1, 1, 1, 1] 0 = ok s ∧
    s.Valid 4 (Relation.TransGen (ChildOf 4 (parentOf [3, 3, 3, -1]))) ∧ s.nodes.length = 4 := by
  have hf : Forest 4 (parentOf [3, 3, 3, -1]) := by
    have h : ∀ j, j < 4 → ∀ p ∈ (parentOf [3, 3, 3, -1] j).toList, j < p ∧ p < 4 := by decide
    exact fun j p hj hp => h j hj p (by rw [hp]; simp)
  refine C69_flat_forest (t := [3, 3, 3, -1]) rfl hf (by decide) ?_ (P := exParams) (fun _ => .refl _) 1 2 rfl 0
  intro v k h
  have hst : ∀ u, u < 4 → ∀ v ∈ (parentOf [3, 3, 3, -1] u).toList,
      [0, 0, 0, 1].getD u 0 + 1 ≤ [0, 0, 0, 1].getD v 0 := by decide
  have hb : ∀ v, v < 4 → [0, 0, 0, 1].getD v 0 ≤ 1 := by decide
  have key : ∀ k v, Chain 4 (parentOf [3, 3, 3, -1]) k v → k ≤ [0, 0, 0, 1].getD v 0 := by
    intro k v h
    induction h with
    | nil hv => omega
    | snoc _ hc ih =>
      rename_i k u v _
      have := hst u hc.1 v (by rw [hc.2]; simp)
      omega
  have h1 := key k v h.1
  have h2 := hb v (h.1.lt hf).2
  omega

/-- **C69, limit: one node.**  The level set is written behind its end. -/
theorem C69_one_node_ub : coarsenTree exParams true 1 [-1] 2 2 [1] 0 = Res.ub := by decide +kernel

/-- **C69, limit: distance 1.**  With `minLevelDist = 1` every node of this forest becomes a part of
its own, and `finalPartPtr` is written behind its end. -/
theorem C69_distance_one_ub :
    coarsenTree { exParams with innerParts := 16 } true 16 [8, 9, 10, 11, 12, 8, 9, 10, 13, 14, 15, 15, 15, -1, -1, -1]
      1 2 (List.replicate 16 1) 0 = Res.ub := by decide +kernel

end Verif.LbcTree
