import Verif.Proof.LbcBlocked
import Verif.Spec.Sched

/-!
# C95, C96: level sets and the LBC inspector for matrices stored by blocks

`build_levelSet_BCSC` and `getCoarseLevelSet_DAG_BCSC02` (models in Verif/Model/LbcBlocked.lean);
`BlockCsc` is the specification of the storage and of the dependences between the blocks.
-/

namespace Verif.BlockCsc
variable {M : BlockCsc}

theorem WF.pathTo_iff (h : M.WF) {k t : Nat} : M.graph.PathTo k t ↔ M.PathTo k t := by
  constructor
  · intro hp
    induction hp with
    | nil hv => exact .nil hv
    | snoc _ hd ih => exact .snoc ih (h.dep_iff.1 hd)
  · intro hp
    induction hp with
    | nil hv => exact .nil hv
    | snoc _ hd ih => exact .snoc ih (h.dep_iff.2 hd)

/-- The dependences of a lower triangular matrix go to later blocks. -/
theorem WF.dep_lt_of_lower (h : M.WF) (hl : M.Lower) {s t : Nat} (hd : M.Dep s t) : s < t := by
  obtain ⟨hs, r, hr, ht, h1, h2⟩ := hd
  have h3 := hl s hs r hr
  by_contra hc
  have hmono : ∀ b a, a ≤ b → b ≤ M.n → M.lo a ≤ M.lo b := by
    intro b
    induction b with
    | zero => intro a ha _; obtain rfl : a = 0 := by omega
              exact Nat.le_refl _
    | succ b ih =>
      intro a ha hb
      rcases Nat.lt_or_ge a (b + 1) with hlt | hge
      · exact Nat.le_trans (ih a (by omega) (by omega)) (Nat.le_of_lt (h.strict b (by omega)))
      · obtain rfl : a = b + 1 := by omega
        exact Nat.le_refl _
  have := hmono (s + 1) (t + 1) (by omega) (by omega)
  omega

theorem WF.acyclic_of_lower (h : M.WF) (hl : M.Lower) : M.Acyclic := by
  intro s hs
  have : ∀ a b, Relation.TransGen M.Dep a b → a < b := by
    intro a b hab
    induction hab with
    | single hd => exact h.dep_lt_of_lower hl hd
    | tail _ hd ih => exact Nat.lt_trans ih (h.dep_lt_of_lower hl hd)
  exact Nat.lt_irrefl _ (this s s hs)

theorem Filled.comparable (hf : M.Filled) : M.Comparable := by
  intro s t u h1 h2
  rcases Nat.lt_trichotomy t u with h | h | h
  · exact .inl (.single (hf s t u h1 h2 h))
  · subst h; exact .inl .refl
  · exact .inr (.single (hf s u t h2 h1 h))

instance (r t : Nat) : Decidable (M.InBlock r t) :=
  inferInstanceAs (Decidable (t < M.n ∧ M.lo t ≤ r ∧ r < M.lo (t + 1)))

instance : Decidable M.Lower :=
  inferInstanceAs (Decidable (∀ s, s < M.n → ∀ r ∈ M.below s, M.lo (s + 1) ≤ r))

/-- For examples: the conditions of `WF` with bounds. -/
theorem WF.of_bounds (firstLen : M.first.length = M.n + 1) (first0 : M.lo 0 = 0)
    (strict : ∀ s, s < M.n → M.lo s < M.lo (s + 1)) (blkLen : M.lo M.n ≤ M.blk.length)
    (blk : ∀ s, s < M.n → ∀ c, c < M.lo (s + 1) → M.lo s ≤ c → M.blk.getD c 0 = s)
    (ptrLen : M.lo M.n < M.ptr.length) (ptr0 : M.base 0 = 0)
    (room : ∀ s, s < M.n → M.base s + M.width s ≤ M.base (s + 1))
    (rowsLen : M.base M.n ≤ M.rows.length)
    (inner : ∀ s, s < M.n → ∀ c, c < M.lo (s + 1) → M.lo s ≤ c →
      M.base s ≤ M.ptr.getD c 0 ∧ M.ptr.getD c 0 ≤ M.base s + M.width s)
    (diag : ∀ s, s < M.n → ∀ k, k < M.width s → M.lo s ≤ M.rows.getD (M.base s + k) 0 ∧
      M.rows.getD (M.base s + k) 0 < M.lo (s + 1))
    (off : ∀ s, s < M.n → ∀ r ∈ M.below s, ∃ t, t < M.n ∧ (M.lo t ≤ r ∧ r < M.lo (t + 1)) ∧ t ≠ s) :
    M.WF :=
  ⟨firstLen, first0, strict, blkLen, fun c s h => blk s h.1 c h.2.2 h.2.1, ptrLen, ptr0, room, rowsLen,
    fun c s h => inner s h.1 c h.2.2 h.2.1, fun s hs k hk => ⟨hs, diag s hs k hk⟩,
    fun s hs r hr => by obtain ⟨t, h1, h2, h3⟩ := off s hs r hr; exact ⟨t, ⟨h1, h2⟩, h3⟩⟩

end Verif.BlockCsc

namespace Verif.Blocked
open Res Lbc BlockCsc LevelSet

variable {M : BlockCsc}

/-- **C95** If the loop `while (inDegree[begin] == 1) begin++` finds another value in the memory behind the array
in every round, `build_levelSet_BCSC` returns the level set of the blocks: the level pointers increase from `0` to the
number of blocks, every block is listed once, and it is in level `l` exactly if the longest path of dependences to it
has `l` dependences. -/
theorem C95_blocked_levels (h : M.WF) (ha : M.Acyclic) (debug : Bool) {slack : Nat → List Int}
    (hsl : ∀ k, ∃ x ∈ slack k, x ≠ 1) :
    ∃ L ptr set, buildLevelSet debug M slack = ok (L, ptr, set) ∧
      ptr[0]? = some 0 ∧ ptr[L]? = some M.n ∧
      (∀ l, l < L → ∃ a b, ptr[l]? = some a ∧ ptr[l + 1]? = some b ∧ a < b) ∧
      set.Perm (List.range M.n) ∧
      ∀ l v, l < L → (InLevel ptr set l v ↔ v < M.n ∧ M.IsDepth v l) := by
  obtain ⟨⟨L, ptr, set⟩, ho, ntl, hO⟩ := wp_iff.1 (buildLevelSet_wp h ha debug hsl)
  dsimp only at hO
  have hwf := h.graph
  have hlN := hO.lN
  have hpl := hO.ptrLen
  have hdepth : ∀ v l, v < M.n → (M.IsDepth v l ↔ l = ntl.getD v 0) := by
    intro v l hv
    obtain ⟨d1, d2⟩ := hO.isDepth hwf hv
    constructor
    · rintro ⟨k1, k2⟩
      have := k2 _ (h.pathTo_iff.1 d1)
      have := d2 _ (h.pathTo_iff.2 k1)
      omega
    · rintro rfl
      exact ⟨h.pathTo_iff.1 d1, fun m hm => d2 m (h.pathTo_iff.2 hm)⟩
  refine ⟨L, ptr, set, ho, ?_, ?_, ?_, hO.perm, ?_⟩
  · rw [hO.get_ptr (by omega), hO.ptr0]
  · rw [hO.get_ptr (Nat.le_refl _), hO.ptrL, graph_n]
  · intro l hl
    exact ⟨_, _, hO.get_ptr (by omega), hO.get_ptr (by omega), hO.strict l hl⟩
  · intro l v hl
    constructor
    · rintro ⟨k, ⟨a, b, ha, hb, h1, h2⟩, hk⟩
      rw [hO.get_ptr (by omega)] at ha hb
      simp only [Option.some.injEq] at ha hb
      have hkv : set.getD k 0 = v := by
        rw [List.getD_eq_getElem?_getD, hk]; rfl
      have hl' := hO.lvl l k hl (by omega) (by omega)
      rw [hkv] at hl'
      have hv : v < M.n := by
        have := List.mem_of_getElem? hk
        rw [hO.perm.mem_iff, List.mem_range] at this
        exact this
      exact ⟨hv, (hdepth v l hv).2 hl'.symm⟩
    · rintro ⟨hv, hd⟩
      obtain rfl := (hdepth v l hv).1 hd
      obtain ⟨k, hk, rfl⟩ := hO.exists_pos hv
      have hb := hO.pos_block hk
      exact ⟨k, ⟨_, _, hO.get_ptr (by omega), hO.get_ptr (by omega), hb.2.1, hb.2.2⟩, hO.get_set hk⟩

/-- **C95** Without such memory the function always reads past the end of `inDegree`: for every matrix with at
least one block. -/
theorem C95_blocked_levels_ub (h : M.WF) (ha : M.Acyclic) (h0 : 0 < M.n) (debug : Bool) :
    buildLevelSet debug M (fun _ => []) = ub := buildLevelSet_ub h ha h0 debug

variable {K : Type} [Add K] [LT K] [DecidableLT K]

/-- **C96** (the claim that the schedule is valid for every lower triangular matrix is false, see
`C96_blocked_silent_race`).  If of two blocks that depend on the same block one depends on the other (directly or not)
and the memory behind `inDegree` stops the loop of C95, the inspector ends normally with a valid schedule, in
which `finalNodePtr` has exactly the blocks. -/
theorem C96_blocked_schedule (h : M.WF) (ha : M.Acyclic) (hcm : M.Comparable) (h0 : 0 < M.n) {P : Params K}
    (hin : 1 ≤ P.innerParts) (hsort : ∀ l, (P.sort l).Perm l) (hn : M.n ≤ intMax)
    {slack : Nat → List Int} (hsl : ∀ k, ∃ x ∈ slack k, x ≠ 1) {minDist : Int} (divRate : Int)
    (hg : 2 ≤ minDist ∨ P.innerParts ≤ 1 ∨ ∀ u v w, M.Dep u v → ¬ M.Dep v w)
    (hfit : (∃ u v, M.Dep u v) ∨ P.innerParts < M.n)
    {nodeCost : List K} (hc : nodeCost.length = M.n) (zero : K)
    {xi0 ps0 : List Nat} (hxi : xi0.length = M.n) (hps : ps0.length = M.n) :
    ∃ s, coarsen P M slack minDist divRate nodeCost zero xi0 ps0 = ok s ∧ s.Valid M.n M.Dep ∧
      s.nodes.length = M.n :=
  wp_iff.1 (coarsen_wp h ha hcm h0 hin hsort hn hsl divRate hg hfit hc zero hxi hps)

/-- **C96** In particular for the pattern of a Cholesky factor, for which the function is made. -/
theorem C96_blocked_schedule_filled (h : M.WF) (hl : M.Lower) (hf : M.Filled) (h0 : 0 < M.n) {P : Params K}
    (hin : 1 ≤ P.innerParts) (hsort : ∀ l, (P.sort l).Perm l) (hn : M.n ≤ intMax)
    {slack : Nat → List Int} (hsl : ∀ k, ∃ x ∈ slack k, x ≠ 1) {minDist : Int} (divRate : Int)
    (hg : 2 ≤ minDist ∨ P.innerParts ≤ 1 ∨ ∀ u v w, M.Dep u v → ¬ M.Dep v w)
    (hfit : (∃ u v, M.Dep u v) ∨ P.innerParts < M.n)
    {nodeCost : List K} (hc : nodeCost.length = M.n) (zero : K)
    {xi0 ps0 : List Nat} (hxi : xi0.length = M.n) (hps : ps0.length = M.n) :
    ∃ s, coarsen P M slack minDist divRate nodeCost zero xi0 ps0 = ok s ∧ s.Valid M.n M.Dep ∧
      s.nodes.length = M.n :=
  C96_blocked_schedule h (h.acyclic_of_lower hl) hf.comparable h0 hin hsort hn hsl divRate hg hfit hc zero hxi
    hps

/-! ### Matrices that break it -/

/-- Parameters of the examples: debug build, 4 bins. -/
def exP : Params Nat := ⟨true, 4, true, 1000000, id, fun _ _ => [], fun _ l => l⟩

/-- Blocks of one column: 0 → 4, 1 → 3, 2 → 3, 2 → 4. -/
def exBad : BlockCsc := ⟨5, [0, 1, 2, 3, 4, 5], [0, 1, 2, 3, 4], [0, 2, 4, 7, 8, 9], [0, 4, 1, 3, 2, 3, 4, 3, 4]⟩

/-- The same with another block that depends on nothing. -/
def exRace : BlockCsc :=
  ⟨6, [0, 1, 2, 3, 4, 5, 6], [0, 1, 2, 3, 4, 5], [0, 2, 4, 7, 8, 9, 10], [0, 4, 1, 3, 2, 3, 4, 3, 4, 5]⟩

/-- Blocks of 2, 1 and 2 columns: 0 → 1, 0 → 2, 1 → 2. -/
def exFill : BlockCsc := ⟨3, [0, 2, 3, 5], [0, 0, 1, 2, 2], [0, 0, 4, 7, 7, 9], [0, 1, 2, 4, 2, 3, 4, 3, 4]⟩

theorem exBad_wf : exBad.WF := by
  refine WF.of_bounds ?_ ?_ ?_ ?_ ?_ ?_ ?_ ?_ ?_ ?_ ?_ ?_ <;> decide

theorem exRace_wf : exRace.WF := by
  refine WF.of_bounds ?_ ?_ ?_ ?_ ?_ ?_ ?_ ?_ ?_ ?_ ?_ ?_ <;> decide

theorem exFill_wf : exFill.WF := by
  refine WF.of_bounds ?_ ?_ ?_ ?_ ?_ ?_ ?_ ?_ ?_ ?_ ?_ ?_ <;> decide

/-- **C96** A lower triangular matrix for which a component gets a number below 0 or a part is not there: undefined,
although all other conditions of the theorem hold. -/
theorem C96_blocked_ub : exBad.WF ∧ exBad.Lower ∧ (∃ u v, exBad.Dep u v) ∧
    coarsen exP exBad (fun _ => [0]) 2 2 [1, 1, 1, 1, 1] 0 [0, 0, 0, 0, 0] [0, 0, 0, 0, 0] = ub := by
  refine ⟨exBad_wf, by decide, ⟨0, 4, by decide, 4, by decide, by decide⟩, by decide +kernel⟩

/-- **C96** A lower triangular matrix with a wrong schedule, also in the debug build: block 3 depends on block 2,
and they are in different parts of the same coarse level. -/
theorem C96_blocked_silent_race : exRace.WF ∧ exRace.Lower ∧ exRace.Dep 2 3 ∧
    ∃ s, coarsen exP exRace (fun _ => [0]) 2 2 [1, 1, 1, 1, 1, 1] 0 [0, 0, 0, 0, 0, 0] [0, 0, 0, 0, 0, 0] = ok s ∧
      s.At 2 0 0 1 ∧ s.At 3 0 1 4 ∧ ¬ s.Valid 6 exRace.Dep := by
  have hd : exRace.Dep 2 3 := ⟨by decide, 3, by decide, by decide⟩
  have h1 : coarsen exP exRace (fun _ => [0]) 2 2 [1, 1, 1, 1, 1, 1] 0 [0, 0, 0, 0, 0, 0] [0, 0, 0, 0, 0, 0]
      = ok ⟨1, [0, 2, 0, 0, 0, 0, 0], [0, 3, 6, 0, 0, 0], [0, 2, 4, 1, 3, 5]⟩ := by decide +kernel
  have h2 : Sched.At ⟨1, [0, 2, 0, 0, 0, 0, 0], [0, 3, 6, 0, 0, 0], [0, 2, 4, 1, 3, 5]⟩ 2 0 0 1 :=
    ⟨by decide, ⟨0, 2, rfl, rfl, by decide, by decide⟩, ⟨0, 3, rfl, rfl, by decide, by decide⟩, rfl⟩
  have h3 : Sched.At ⟨1, [0, 2, 0, 0, 0, 0, 0], [0, 3, 6, 0, 0, 0], [0, 2, 4, 1, 3, 5]⟩ 3 0 1 4 :=
    ⟨by decide, ⟨0, 2, rfl, rfl, by decide, by decide⟩, ⟨3, 6, rfl, rfl, by decide, by decide⟩, rfl⟩
  refine ⟨exRace_wf, by decide, hd, _, h1, h2, h3, fun hv => ?_⟩
  rcases hv.respects 2 3 hd _ _ _ _ _ _ h2 h3 with h | ⟨_, h, _⟩
  · exact absurd h (by decide)
  · exact absurd h (by decide)

/-- **C96** `finalPartPtr` has one element per block, one too few if every block is a part: two blocks without
dependences. -/
theorem C96_blocked_no_room :
    coarsen exP ⟨2, [0, 1, 2], [0, 1], [0, 1, 2], [0, 1]⟩ (fun _ => [0]) 2 2 [1, 1] 0 [0, 0] [0, 0] = ub := by
  decide +kernel

/-! ### The theorems apply -/

theorem exFill_lower : exFill.Lower := by decide

theorem exFill_filled : exFill.Filled := by
  intro s t u h1 h2 htu
  obtain ⟨hs, r, hr, ht⟩ := h1
  obtain ⟨-, r', hr', hu⟩ := h2
  have := exFill_wf.dep_lt_of_lower exFill_lower (s := s) (t := t) ⟨hs, r, hr, ht⟩
  have hu3 : u < 3 := hu.1
  obtain rfl : t = 1 := by omega
  obtain rfl : u = 2 := by omega
  exact ⟨by decide, 3, by decide, by decide⟩

example : ∃ L ptr set, buildLevelSet true exFill (fun _ => [7]) = ok (L, ptr, set) ∧ set.Perm (List.range 3) := by
  obtain ⟨L, ptr, set, h, -, -, -, h2, -⟩ := C95_blocked_levels exFill_wf
    (exFill_wf.acyclic_of_lower exFill_lower) true (slack := fun _ => [7]) (fun _ => ⟨7, by simp, by decide⟩)
  exact ⟨L, ptr, set, h, h2⟩

example : buildLevelSet true exFill (fun _ => []) = ub :=
  C95_blocked_levels_ub exFill_wf (exFill_wf.acyclic_of_lower exFill_lower) (by decide) true

example : ∃ s, coarsen exP exFill (fun _ => [0]) 2 2 [1, 1, 1] 0 [0, 0, 0] [0, 0, 0] = ok s ∧
    s.Valid 3 exFill.Dep := by
  obtain ⟨s, h1, h2, -⟩ := C96_blocked_schedule_filled exFill_wf exFill_lower exFill_filled (by decide)
    (P := exP) (by decide) (fun l => List.Perm.refl _) (by decide) (slack := fun _ => [0])
    (fun _ => ⟨0, by simp, by decide⟩) (minDist := 2) 2 (.inl (by decide))
    (.inl ⟨0, 1, by decide, 2, by decide, by decide⟩) (nodeCost := [1, 1, 1]) rfl 0 (xi0 := [0, 0, 0]) rfl
    (ps0 := [0, 0, 0]) rfl
  exact ⟨s, h1, h2⟩

end Verif.Blocked
