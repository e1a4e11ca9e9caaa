import Verif.Model.LbcMain
import Verif.Spec.Listing
import Verif.Proof.MtxWrite
import Verif.Props.DemoMain
import Verif.Props.Bench

/-!
# C130: what example/lbc_demo.cpp prints
-/

namespace Verif.LbcMain
open Res Sp Mtx Prepare TestU Listing Metis

/-! ### The text determines the listing -/

theorem decimal_cancel {x y : Nat} {s t : Text} (h : decimal x ++ ',' :: s = decimal y ++ ',' :: t) : x = y ∧ s = t := by
  have key : ∀ (z : Nat) (r : Text), (decimal z ++ ',' :: r).takeWhile (fun c => c.isDigit) = decimal z := by
    intro z r
    rw [List.takeWhile_append_of_pos (by
      intro c hc
      exact (decimal_numeral z).2.1 c hc)]
    simp
  have h1 : decimal x = decimal y := by rw [← key x s, h, key]
  have hxy : x = y := by rw [← (decimal_numeral x).2.2, h1, (decimal_numeral y).2.2]
  subst hxy
  have := List.append_cancel_left h
  simpa using this

theorem decimal_head (z : Nat) (r : Text) : ∃ c t, decimal z ++ r = c :: t ∧ c.isDigit = true := by
  have hn := decimal_numeral z
  cases hz : decimal z with
  | nil => exact absurd hz hn.1
  | cons c t => exact ⟨c, t ++ r, rfl, hn.2.1 c (by rw [hz]; exact List.mem_cons_self)⟩

theorem lineText_cons (v : Nat) (p : List Nat) (s : Text) :
    lineText (v :: p) ++ s = decimal v ++ ',' :: (lineText p ++ s) := by
  simp [lineText]

theorem lineText_cancel {p q : List Nat} {s t : Text} (h : lineText p ++ s = lineText q ++ t) : p = q ∧ s = t := by
  induction p generalizing q with
  | nil =>
    cases q with
    | nil => exact ⟨rfl, List.append_cancel_left h⟩
    | cons v q =>
      rw [lineText_cons] at h
      obtain ⟨c, r, h1, h2⟩ := decimal_head v (',' :: (lineText q ++ t))
      rw [h1] at h
      have : c = ';' := by simpa [lineText] using (congrArg List.head? h).symm
      subst this
      exact absurd h2 (by decide)
  | cons u p ih =>
    cases q with
    | nil =>
      rw [lineText_cons] at h
      obtain ⟨c, r, h1, h2⟩ := decimal_head u (',' :: (lineText p ++ s))
      rw [h1] at h
      have : c = ';' := by simpa [lineText] using congrArg List.head? h
      subst this
      exact absurd h2 (by decide)
    | cons v q =>
      rw [lineText_cons, lineText_cons] at h
      obtain ⟨rfl, h2⟩ := decimal_cancel h
      obtain ⟨rfl, h3⟩ := ih h2
      exact ⟨rfl, h3⟩

theorem lineText_head (p : List Nat) (s : Text) : ∃ c t, lineText p ++ s = c :: t ∧ c ≠ '\n' := by
  cases p with
  | nil => exact ⟨';', _, rfl, by decide⟩
  | cons v p =>
    rw [lineText_cons]
    obtain ⟨c, t, h1, h2⟩ := decimal_head v (',' :: (lineText p ++ s))
    exact ⟨c, t, h1, by rintro rfl; exact absurd h2 (by decide)⟩

theorem levelText_cons (p : List Nat) (l : List (List Nat)) (s : Text) :
    levelText (p :: l) ++ s = lineText p ++ (levelText l ++ s) := by
  simp [levelText]

theorem levelText_cancel {a b : List (List Nat)} {s t : Text} (h : levelText a ++ s = levelText b ++ t) : a = b ∧ s = t := by
  induction a generalizing b with
  | nil =>
    cases b with
    | nil => exact ⟨rfl, List.append_cancel_left h⟩
    | cons v q =>
      rw [levelText_cons] at h
      obtain ⟨c, r, h1, h2⟩ := lineText_head v (levelText q ++ t)
      rw [h1] at h
      exact absurd (by simpa [levelText] using (congrArg List.head? h).symm) h2
  | cons u p ih =>
    cases b with
    | nil =>
      rw [levelText_cons] at h
      obtain ⟨c, r, h1, h2⟩ := lineText_head u (levelText p ++ s)
      rw [h1] at h
      exact absurd (by simpa [levelText] using congrArg List.head? h) h2
    | cons v q =>
      rw [levelText_cons, levelText_cons] at h
      obtain ⟨rfl, h2⟩ := lineText_cancel h
      obtain ⟨rfl, h3⟩ := ih h2
      exact ⟨rfl, h3⟩

/-- **C130.** The text that is printed determines the schedule: levels, parts and the order in the parts. -/
theorem C130_readable {a b : List (List (List Nat))} (h : Listing.text a = Listing.text b) : a = b := by
  induction a generalizing b with
  | nil =>
    cases b with
    | nil => rfl
    | cons v q => simp [Listing.text, levelText] at h
  | cons u p ih =>
    cases b with
    | nil => simp [Listing.text, levelText] at h
    | cons v q =>
      obtain ⟨rfl, h2⟩ := levelText_cancel (show levelText u ++ Listing.text p = levelText v ++ Listing.text q from h)
      rw [ih h2]

/-! ### Printing -/

theorem slice_map_range {l : List Nat} {a b : Nat} (hb : b ≤ l.length) :
    slice l a b = (List.range' a (b - a)).map fun k => l.getD k 0 := by
  refine List.ext_getElem? fun i => ?_
  unfold slice
  rw [List.getElem?_take, List.getElem?_map, List.getElem?_drop]
  by_cases h : i < b - a
  · rw [if_pos h, List.getElem?_range' h]
    simp only [Option.map_some, Nat.one_mul]
    rw [List.getD_eq_getElem _ _ (by omega), List.getElem?_eq_getElem (by omega)]
  · rw [if_neg h, List.getElem?_eq_none (by simp; omega)]
    rfl

/-- The levels of a schedule, as lists. -/
def levelsOf (s : Sched) : List (List (List Nat)) :=
  (List.range' 0 s.levels).map fun l =>
    (List.range' (s.levelPtr.getD l 0) (s.levelPtr.getD (l + 1) 0 - s.levelPtr.getD l 0)).map fun q =>
      slice s.nodes (s.partPtr.getD q 0) (s.partPtr.getD (q + 1) 0)

theorem printHLevelSet_eq {s : Sched} {n : Nat} (hp : s.PtrsOk n) (hn : n ≤ s.nodes.length) (beg : Text) :
    printHLevelSet beg s = ok (beg ++ Listing.text (levelsOf s)) := by
  obtain ⟨parts, h1, h2⟩ := hp
  unfold printHLevelSet
  rw [forRange_append (fun l => levelText ((List.range' (s.levelPtr.getD l 0)
    (s.levelPtr.getD (l + 1) 0 - s.levelPtr.getD l 0)).map fun q =>
      slice s.nodes (s.partPtr.getD q 0) (s.partPtr.getD (q + 1) 0))) (Nat.zero_le _)]
  · unfold Listing.text levelsOf
    rw [List.flatMap_map]
    rfl
  intro l txt _ hl
  have hlen := h1.len
  have hm := h1.dmono hl
  have hle := h1.dle (show l + 1 ≤ s.levels from hl)
  rw [rd_getD 0 (by omega), ok_bind, rd_getD 0 (by omega), ok_bind,
    forRange_append (fun q => lineText (slice s.nodes (s.partPtr.getD q 0) (s.partPtr.getD (q + 1) 0))) hm, ok_bind]
  · unfold levelText
    rw [List.flatMap_map, List.append_assoc]
  intro q txt _ hq
  have hlen2 := h2.len
  have hm2 := h2.dmono (show q < parts by omega)
  have hle2 := h2.dle (show q + 1 ≤ parts by omega)
  rw [rd_getD 0 (by omega), ok_bind, rd_getD 0 (by omega), ok_bind,
    forRange_append (fun k => decimal (s.nodes.getD k 0) ++ [',']) hm2, ok_bind]
  · unfold lineText
    rw [slice_map_range (by omega), List.flatMap_map, List.append_assoc]
  intro k txt _ hk
  rw [rd_getD 0 (by omega), ok_bind, List.append_assoc]

theorem flatten_blocks {α : Type} {l : List α} {p : Nat → Nat} {a k : Nat}
    (h : ∀ b, a ≤ b → b < a + k → p b ≤ p (b + 1)) :
    (((List.range' a k).map fun q => slice l (p q) (p (q + 1))).flatten = slice l (p a) (p (a + k))) ∧ p a ≤ p (a + k) := by
  induction k with
  | zero => simp [slice_self]
  | succ k ih =>
    obtain ⟨i1, i2⟩ := ih fun b hb hb' => h b hb (by omega)
    have := h (a + k) (by omega) (by omega)
    rw [List.range'_concat, List.map_append, List.flatten_append, i1]
    simp only [List.map_cons, List.map_nil, List.flatten_cons, List.flatten_nil, List.append_nil, Nat.one_mul]
    rw [slice_append i2 this]
    exact ⟨rfl, by rw [← Nat.add_assoc]; omega⟩

theorem mem_levelsOf {s : Sched} {v l q k : Nat} (h : s.At v l q k) :
    ∃ parts p, (l, parts) ∈ (List.range' 0 s.levels).map (fun l => (l,
      (List.range' (s.levelPtr.getD l 0) (s.levelPtr.getD (l + 1) 0 - s.levelPtr.getD l 0)).map fun q =>
      slice s.nodes (s.partPtr.getD q 0) (s.partPtr.getD (q + 1) 0))) ∧ p ∈ parts ∧
      p = slice s.nodes (s.partPtr.getD q 0) (s.partPtr.getD (q + 1) 0) ∧
      s.partPtr.getD q 0 ≤ k ∧ k < s.partPtr.getD (q + 1) 0 ∧ v ∈ p := by
  obtain ⟨h1, ⟨lo, hi, a1, a2, a3, a4⟩, ⟨lo', hi', b1, b2, b3, b4⟩, h4⟩ := h
  have ea : s.levelPtr.getD l 0 = lo := by rw [List.getD_eq_getElem?_getD, a1]; rfl
  have eb : s.levelPtr.getD (l + 1) 0 = hi := by rw [List.getD_eq_getElem?_getD, a2]; rfl
  have ec : s.partPtr.getD q 0 = lo' := by rw [List.getD_eq_getElem?_getD, b1]; rfl
  have ed : s.partPtr.getD (q + 1) 0 = hi' := by rw [List.getD_eq_getElem?_getD, b2]; rfl
  refine ⟨_, _, List.mem_map.2 ⟨l, ?_, rfl⟩, List.mem_map.2 ⟨q, ?_, rfl⟩, rfl, by omega, by omega, ?_⟩
  · rw [List.mem_range'_1]; omega
  · rw [List.mem_range'_1]; omega
  · exact mem_slice.2 ⟨k, by omega, by omega, h4⟩

theorem levelsOf_good {s : Sched} {n : Nat} {dep : Nat → Nat → Prop} (h : s.Valid n dep)
    (hdep : ∀ u v, dep u v → u < n ∧ v < n) : Good n dep (levelsOf s) := by
  obtain ⟨parts, h1, h2⟩ := h.ptrs
  have hlen : n ≤ s.nodes.length := by
    have := h.complete.length_eq
    simp at this
    omega
  have hwhere : ∀ v, v < n → ∃ l q k, s.At v l q k := by
    intro v hv
    have hm := h.complete.mem_iff.2 (List.mem_range.2 hv)
    obtain ⟨k, hk⟩ := List.mem_iff_getElem?.1 hm
    rw [List.getElem?_take] at hk
    by_cases hkn : k < n
    · rw [if_pos hkn] at hk
      obtain ⟨q, q1, q2⟩ := h2.exists_block hkn
      obtain ⟨l, l1, l2⟩ := h1.exists_block q1
      exact ⟨l, q, k, l1, (h1.inBlock_iff l1).2 l2, (h2.inBlock_iff q1).2 q2, hk⟩
    · rw [if_neg hkn] at hk; cases hk
  constructor
  · have e1 : ∀ l ∈ List.range' 0 s.levels,
        ((List.range' (s.levelPtr.getD l 0) (s.levelPtr.getD (l + 1) 0 - s.levelPtr.getD l 0)).map fun q =>
          slice s.nodes (s.partPtr.getD q 0) (s.partPtr.getD (q + 1) 0)).flatten
        = slice s.nodes (s.partPtr.getD (s.levelPtr.getD l 0) 0) (s.partPtr.getD (s.levelPtr.getD (l + 1) 0) 0) := by
      intro l hl
      rw [List.mem_range'_1] at hl
      have hm := h1.dmono (show l < s.levels by omega)
      have hle := h1.dle (show l + 1 ≤ s.levels by omega)
      have := (flatten_blocks (l := s.nodes) (p := fun q => s.partPtr.getD q 0) (a := s.levelPtr.getD l 0)
        (k := s.levelPtr.getD (l + 1) 0 - s.levelPtr.getD l 0) (fun b _ hb => h2.dmono (by omega))).1
      rw [show s.levelPtr.getD l 0 + (s.levelPtr.getD (l + 1) 0 - s.levelPtr.getD l 0) = s.levelPtr.getD (l + 1) 0 by omega]
        at this
      exact this
    have e2 : (levelsOf s).flatten.flatten = s.nodes.take n := by
      rw [List.flatten_flatten]
      unfold levelsOf
      rw [List.map_map, List.map_congr_left (f := List.flatten ∘ _) (g := fun l => slice s.nodes (s.partPtr.getD (s.levelPtr.getD l 0) 0)
        (s.partPtr.getD (s.levelPtr.getD (l + 1) 0) 0)) e1]
      rw [(flatten_blocks (l := s.nodes) (p := fun l => s.partPtr.getD (s.levelPtr.getD l 0) 0) (a := 0) (k := s.levels)
        (fun b _ hb => h2.dmono_le (h1.dmono (by omega)) (h1.dle (by omega)))).1]
      rw [Nat.zero_add, h1.d0, h1.dlast, h2.d0, h2.dlast, slice_zero]
    rw [e2]
    exact h.complete
  · intro u v huv
    obtain ⟨hu, hv⟩ := hdep u v huv
    obtain ⟨l, q, k, a⟩ := hwhere u hu
    obtain ⟨l', q', k', a'⟩ := hwhere v hv
    obtain ⟨ps, p, c1, c2, c3, c4, c5, c6⟩ := mem_levelsOf a
    obtain ⟨ps', p', d1, d2, d3, d4, d5, d6⟩ := mem_levelsOf a'
    obtain ⟨x, x1, x2⟩ := List.mem_map.1 c1
    obtain ⟨y, y1, y2⟩ := List.mem_map.1 d1
    simp only [Prod.mk.injEq] at x2 y2
    obtain ⟨rfl, x2⟩ := x2
    obtain ⟨rfl, y2⟩ := y2
    rw [List.mem_range'_1] at x1 y1
    rcases h.respects u v huv x q k y q' k' a a' with hlt | ⟨rfl, rfl, hlt⟩
    · left
      refine ⟨(levelsOf s).take y, (levelsOf s).drop y, (List.take_append_drop _ _).symm, ?_, ?_⟩
      · refine List.mem_flatten.2 ⟨p, List.mem_flatten.2 ⟨ps, ?_, c2⟩, c6⟩
        refine List.mem_take_iff_getElem.2 ⟨x, ?_, ?_⟩
        · simp [levelsOf]; omega
        · simp only [levelsOf, List.getElem_map, List.getElem_range', Nat.zero_add, Nat.one_mul]
          exact x2
      · refine List.mem_flatten.2 ⟨p', List.mem_flatten.2 ⟨ps', ?_, d2⟩, d6⟩
        refine List.mem_drop_iff_getElem.2 ⟨0, ?_, ?_⟩
        · simp [levelsOf]; omega
        · simp only [levelsOf, List.getElem_map, List.getElem_range', Nat.zero_add, Nat.one_mul, Nat.add_zero]
          exact y2
    · right
      refine ⟨ps, ?_, p, c2, slice s.nodes (s.partPtr.getD q 0) k', slice s.nodes k' (s.partPtr.getD (q + 1) 0), ?_, ?_, ?_⟩
      · exact List.mem_map.2 ⟨x, by rw [List.mem_range'_1]; omega, x2⟩
      · rw [c3, slice_append (by omega) (by omega)]
      · exact mem_slice.2 ⟨k, by omega, by omega, a.2.2.2⟩
      · exact mem_slice.2 ⟨k', by omega, by omega, a'.2.2.2⟩

/-- **C130.** `print_hlevel_set` of a valid schedule writes a listing in which every node occurs once and every dependence
goes from an earlier level to a later one or forwards in a line. -/
theorem C130_print {s : Sched} {n : Nat} {dep : Nat → Nat → Prop} (h : s.Valid n dep)
    (hdep : ∀ u v, dep u v → u < n ∧ v < n) (beg : Text) :
    ∃ levels, printHLevelSet beg s = ok (beg ++ Listing.text levels) ∧ levels.length = s.levels ∧ Good n dep levels := by
  refine ⟨levelsOf s, printHLevelSet_eq h.ptrs ?_ beg, by simp [levelsOf], levelsOf_good h hdep⟩
  have := h.complete.length_eq
  simp at this
  omega

/-- **C130.** `print_level_set` writes one line for each level, with its nodes in their order. -/
theorem C130_print_levels {n total : Nat} {ptr set : List Nat} (h : PtrOk ptr n total) (hs : total ≤ set.length) (beg : Text) :
    printLevelSet beg n ptr set = ok (beg ++ (List.range n).flatMap fun i =>
      ((set.drop (ptr.getD i 0)).take (ptr.getD (i + 1) 0 - ptr.getD i 0)).flatMap (fun v => decimal v ++ [',']) ++ ['\n']) := by
  unfold printLevelSet
  rw [forRange_append (fun i =>
      ((set.drop (ptr.getD i 0)).take (ptr.getD (i + 1) 0 - ptr.getD i 0)).flatMap (fun v => decimal v ++ [',']) ++ ['\n'])
      (Nat.zero_le _), Nat.sub_zero, ← List.range_eq_range']
  intro i txt _ hi
  have hlen := h.len
  have hm := h.dmono hi
  have hle := h.dle (show i + 1 ≤ n from hi)
  rw [rd_getD 0 (by omega), ok_bind, rd_getD 0 (by omega), ok_bind,
    forRange_append (fun k => decimal (set.getD k 0) ++ [',']) hm, ok_bind]
  · have := slice_map_range (l := set) (a := ptr.getD i 0) (b := ptr.getD (i + 1) 0) (by omega)
    unfold slice at this
    rw [this, List.flatMap_map, List.append_assoc]
  intro k txt _ hk
  rw [rd_getD 0 (by omega), ok_bind, List.append_assoc]

/-! ### The program -/

variable {V K : Type} [Zero V] [Add K] [LT K] [DecidableLT K]

/-- `v` uses the result of `u`: there is an entry in row `v` and column `u`. -/
def Uses (es : List (Nat × Nat × V)) (u v : Nat) : Prop := u ≠ v ∧ ∃ x, (v, u, x) ∈ es

omit [Zero V] in
theorem dep_iff {L : Sp V} (h : L.LowerCsc) {u v : Nat} : L.graph.Dep u v ↔ Uses L.entries u v := by
  constructor
  · rintro ⟨h1, h2, h3⟩
    obtain ⟨x, hx⟩ := (h.wf.mem_colRows (show u < L.cols from h1)).1 h2
    exact ⟨h3, x, hx⟩
  · rintro ⟨h1, x, hx⟩
    have hu : u < L.cols := (mem_entries.1 hx).1
    exact ⟨hu, (h.wf.mem_colRows hu).2 ⟨x, hx⟩, h1⟩

omit [Zero V] in
theorem inspect_eq {L : Sp V} (hL : L.LowerCsc) (hch : ¬ L.EtreeChain) {stype : Int} (hs : stype ≤ 0) {P : Lbc.Params K}
    (hsort : ∀ l, (P.sort l).Perm l) {p2 p3 : Int} (hd : 2 ≤ p2 ∨ P.innerParts < 2 * LbcTree.rate p3) (conv : Int → K)
    (zero : K) :
    ∃ levels, inspect P conv zero p2 p3 L stype = ok (header ++ Listing.text levels) ∧
      Good L.cols (Uses L.entries) levels := by
  obtain ⟨j, hj, hnf⟩ : ∃ j, j + 1 < L.cols ∧ ¬ Fill (fun k i => L.graph.Dep i k) (j + 1) j := by
    by_contra h
    exact hch fun j hj => by
      by_contra h'
      exact h ⟨j, hj, h'⟩
  have hwf := (hL.wf.graph hL.square)
  have hlow : L.graph.Lower := by
    intro u hu v hv
    obtain ⟨x, hx⟩ := (hL.wf.mem_colRows (show u < L.cols from hu)).1 hv
    exact hL.lower _ hx
  obtain ⟨cost, c1, c2⟩ := wp_iff.1 (Lbc.rowCosts_wp conv zero (n := L.cols) (p := L.p) (by rw [hL.wf.plen]; omega))
  obtain ⟨s, s1, s2⟩ := C72_lower (g := L.graph) hwf hlow hs ⟨j, hj, hnf⟩ hsort p3 hd (nodeCost := cost) c2 zero
  have s3 : s.Valid L.cols (Uses L.entries) := s2.mono fun u v h => (dep_iff hL).2 h
  obtain ⟨levels, l1, -, l2⟩ := C130_print s3 (by
    rintro u v ⟨-, x, hx⟩
    have h1 : u < L.cols := (mem_entries.1 hx).1
    have h2 := hL.wf.range u h1 v ((hL.wf.mem_colRows h1).2 ⟨x, hx⟩)
    have := hL.square
    omega) header
  refine ⟨levels, ?_, l2⟩
  unfold inspect
  rw [c1, ok_bind, show Symm.coarsenDagTree P true L.cols L.p L.i stype p2 p3 cost zero = ok s from s1, ok_bind, l1]

/-- **C130.** The program with a file that has the lower triangle of a symmetric matrix with full diagonal, without METIS:
if the elimination tree is not a chain, it prints the header and a listing in which every row occurs once and every
dependence goes from an earlier level to a later one or forwards in a line. -/
theorem C130_file {W : V → Text → Prop} {scanVal : Text → Scan V} (hW : ScanOk W scanVal) {n : Nat} (hn : 0 < n)
    {es : List (Nat × Nat × V)} (hes : LowerList n es) {txt : Text} (htxt : MtxText W true n n es txt) (fuel : Nat)
    {P : Lbc.Params K} (hsort : ∀ l, (P.sort l).Perm l) {p2 p3 : Int}
    (hd : 2 ≤ p2 ∨ P.innerParts < 2 * LbcTree.rate p3) (conv : Int → K) (zero : K) (debug : Bool)
    (hch : ∃ j, j + 1 < n ∧ ¬ Fill (fun k i => Uses es i k) (j + 1) j) :
    ∃ levels, program P conv zero p2 p3 none debug scanVal fuel txt = ok (some (header ++ Listing.text levels)) ∧
      Good n (Uses es) levels := by
  obtain ⟨M, r1, r2, r3, r4, r5, r6⟩ := C115_read_mtx hW htxt hn (fun e he => ⟨(hes.range e he).2, by
    have := hes.range e he; omega⟩) hes.order (fun c hc => by
      obtain ⟨d, hd⟩ := hes.diag c hc
      exact ⟨_, hd, rfl⟩) fuel
  rw [if_pos rfl] at r1
  have hL := lowerCsc_of_list hes r2 r4 r5 r6
  obtain ⟨levels, l1, l2⟩ := inspect_eq hL (by
    intro h
    obtain ⟨j, hj, hnf⟩ := hch
    have := h j (by omega)
    rw [show (fun k i => M.graph.Dep i k) = fun k i => Uses es i k by
      funext k i
      rw [← r6]
      exact propext (dep_iff hL)] at this
    exact hnf this) (stype := -1) (by decide) hsort hd conv zero
  rw [r5, r6] at l2
  refine ⟨levels, ?_, l2⟩
  unfold program
  rw [r1, ok_bind]
  dsimp only
  unfold run
  dsimp only
  rw [ok_bind, l1]
  rfl

/-- **C130.** The same with METIS: the numbers printed are those METIS chose. -/
theorem C130_file_metis {W : V → Text → Prop} {scanVal : Text → Scan V} (hW : ScanOk W scanVal) {n : Nat} (hn : 0 < n)
    {es : List (Nat × Nat × V)} (hes : LowerList n es) {txt : Text} (htxt : MtxText W true n n es txt) (fuel : Nat)
    {P : Lbc.Params K} (hsort : ∀ l, (P.sort l).Perm l) {p2 p3 : Int}
    (hd : 2 ≤ p2 ∨ P.innerParts < 2 * LbcTree.rate p3) (conv : Int → K) (zero : K) {nd : NodeND} (hnd : OrdersNodes nd)
    (debug : Bool) :
    ∃ perm π, perm.Perm (List.range n) ∧ InverseOf perm π n ∧
      ((∃ j, j + 1 < n ∧ ¬ Fill (fun k i => Uses (renamedLower π es) i k) (j + 1) j) →
        ∃ levels, program P conv zero p2 p3 (some nd) debug scanVal fuel txt = ok (some (header ++ Listing.text levels)) ∧
          Good n (Uses (renamedLower π es)) levels) := by
  obtain ⟨M, r1, r2, r3, r4, r5, r6⟩ := C115_read_mtx hW htxt hn (fun e he => ⟨(hes.range e he).2, by
    have := hes.range e he; omega⟩) hes.order (fun c hc => by
      obtain ⟨d, hd⟩ := hes.diag c hc
      exact ⟨_, hd, rfl⟩) fuel
  rw [if_pos rfl] at r1
  have hL := lowerCsc_of_list hes r2 r4 r5 r6
  obtain ⟨perm, π, G, gnz, g1, g2, g3, g4, g5⟩ := C85_reorder hL (by omega) r3.1.ge (stype := -1) (by decide) hnd debug
  rw [r5] at g3 g4
  refine ⟨perm, π, g3, g4, fun hch => ?_⟩
  have hGc := g5.cols
  have hU : Uses G.entries = Uses (renamedLower π es) := by
    have := g5.entries
    rw [r6] at this
    funext u v
    unfold Uses renamedLower
    simp only [this.mem_iff]
  obtain ⟨levels, l1, l2⟩ := inspect_eq g5.lower (by
    intro h
    obtain ⟨j, hj, hnf⟩ := hch
    have := h j (by omega)
    rw [show (fun k i => G.graph.Dep i k) = fun k i => Uses (renamedLower π es) i k by
      funext k i
      rw [← hU]
      exact propext (dep_iff g5.lower)] at this
    exact hnf this) (stype := -1) (by decide) hsort hd conv zero
  rw [hU, show G.cols = n by omega] at l2
  refine ⟨levels, ?_, l2⟩
  unfold program
  rw [r1, ok_bind]
  dsimp only
  unfold run
  dsimp only
  rw [g1, ok_bind, l1]
  rfl

/-- **C130.** The program without arguments and without METIS (16 rows, `k = 4`): it prints such a listing. -/
theorem C130_random {shuf : List Nat → List Nat} {val : Nat → V} {n k : Nat}
    (hs : (shuf (List.range n)).Perm (List.range n)) (hk : 0 < k) (hkn : k + 1 < n) (hmax : n * k ≤ 2147483647)
    {P : Lbc.Params K} (hsort : ∀ l, (P.sort l).Perm l) {p2 p3 : Int}
    (hd : 2 ≤ p2 ∨ P.innerParts < 2 * LbcTree.rate p3) (conv : Int → K) (zero : K) (debug : Bool) :
    ∃ M L levels, randomSquare (fun _ => shuf) val n (k : Int) = ok (some M) ∧ makeHalf M false true = ok L ∧ L.LowerCsc ∧
      runRandom P conv zero p2 p3 none debug (fun _ => shuf) val n (k : Int) = ok (some (header ++ Listing.text levels)) ∧
      Good n (Uses L.entries) levels := by
  obtain ⟨M, L, z, hR, m1, m2, hz, h3, h4, hch⟩ := DemoMain.random_half (val := val) hs hk hkn hmax
  obtain ⟨levels, l1, l2⟩ := inspect_eq h3 hch (stype := -1) (by decide) hsort hd conv zero
  rw [h4] at l2
  refine ⟨M, L, levels, hR, m1, h3, ?_, l2⟩
  unfold runRandom
  rw [hR, ok_bind]
  dsimp only
  rw [m1, ok_bind, m2, ok_bind]
  unfold run
  dsimp only
  rw [ok_bind, l1]
  rfl

/-- **C130** (finding): if the elimination tree is a chain, the program does not end normally. -/
theorem C130_chain {L : Sp V} (hL : L.LowerCsc) (hn : 2 < L.cols) (hch : L.EtreeChain) (P : Lbc.Params K) (conv : Int → K)
    (zero : K) (p2 p3 : Int) (debug : Bool) (nnz : Nat) (r : Text) :
    run P conv zero p2 p3 none debug L (-1) nnz ≠ ok r := by
  intro h
  unfold run at h
  dsimp only at h
  rw [ok_bind] at h
  unfold inspect at h
  obtain ⟨cost, c1, c2⟩ := wp_iff.1 (Lbc.rowCosts_wp conv zero (n := L.cols) (p := L.p) (by rw [hL.wf.plen]; omega))
  rw [c1, ok_bind] at h
  obtain ⟨s, h5, -⟩ := LbcTree.bindOk h
  refine C72_chain_fails (g := L.graph) (hL.wf.graph hL.square) (stype := -1) (by decide) hn ?_ P true p2 p3 c2 zero s h5
  intro j hj
  have key : ∀ k i, Fill (fun k i => L.graph.Dep i k) k i → Fill (SymEntry L.graph (-1)) k i := by
    intro k i h
    induction h with
    | entry h1 h2 => exact .entry h1 (.inl ⟨by decide, h2⟩)
    | fill h1 h2 _ _ ih1 ih2 => exact .fill h1 h2 ih1 ih2
  exact key _ _ (hch j hj)

/-! ### Examples -/

/-- Two levels: the parts `1, 0` and `2`, and then the part `3`. -/
def exListed : Sched := ⟨2, [0, 2, 3], [0, 2, 3, 4], [1, 0, 2, 3]⟩

theorem exListed_at {v l q k : Nat} (h : exListed.At v l q k) :
    (v, l, q, k) ∈ [(1, 0, 0, 0), (0, 0, 0, 1), (2, 0, 1, 2), (3, 1, 2, 3)] := by
  have hb : ∀ {p : List Nat} {i k : Nat}, InBlock p i k → p.getD i 0 ≤ k ∧ k < p.getD (i + 1) 0 := by
    rintro p i k ⟨lo, hi, a, b, c, d⟩
    rw [List.getD_eq_getElem?_getD, List.getD_eq_getElem?_getD, a, b]
    exact ⟨c, d⟩
  obtain ⟨h1, h2, h3, h4⟩ := h
  replace h2 := hb h2
  replace h3 := hb h3
  have : l = 0 ∨ l = 1 := by change l < 2 at h1; omega
  rcases this with rfl | rfl
  · have : q = 0 ∨ q = 1 := by change 0 ≤ q ∧ q < 2 at h2; omega
    rcases this with rfl | rfl
    · have : k = 0 ∨ k = 1 := by change 0 ≤ k ∧ k < 2 at h3; omega
      rcases this with rfl | rfl <;> cases h4 <;> decide
    · have : k = 2 := by change 2 ≤ k ∧ k < 3 at h3; omega
      subst this
      cases h4; decide
  · have : q = 2 := by change 2 ≤ q ∧ q < 3 at h2; omega
    subst this
    have : k = 3 := by change 3 ≤ k ∧ k < 4 at h3; omega
    subst this
    cases h4; decide

theorem exListed_valid : exListed.Valid 4 (fun u v => (u = 1 ∧ v = 0) ∨ (u = 2 ∧ v = 3)) where
  ptrs := ⟨3, PtrOk.mk' (by decide) rfl rfl (by decide), PtrOk.mk' (by decide) rfl rfl (by decide)⟩
  complete := by unfold Sched.Complete; decide
  respects := by
    intro u v hd l q k l' q' k' h h'
    have a := exListed_at h
    have b := exListed_at h'
    simp at a b
    omega

/-- `C130_print` for it. -/
example := C130_print exListed_valid (by omega) header

example : printHLevelSet [] exListed = ok "1,0,; \n2,; \n\n\n3,; \n\n\n".toList := by
  have h : ∀ d, d < 10 → decimal d = [digitChar d] := fun d hd => by rw [decimal, if_pos hd]
  have := printHLevelSet_eq exListed_valid.ptrs (by decide) []
  rw [this]
  change ok (Listing.text [[[1, 0], [2]], [[3]]]) = _
  simp only [Listing.text, levelText, lineText, List.flatMap_cons, List.flatMap_nil, h 0 (by decide), h 1 (by decide),
    h 2 (by decide), h 3 (by decide)]
  rfl

/-- `C130_print_levels` for two levels. -/
example := C130_print_levels (ptr := [0, 1, 3]) (set := [2, 0, 1]) (n := 2) (total := 3)
  (PtrOk.mk' (by decide) rfl rfl (by decide)) (by decide) []

/-- `C130_readable`: a comma more or less is a different listing. -/
example : Listing.text [[[12]]] ≠ Listing.text [[[1, 2]]] := fun h => by
  have := C130_readable h
  simp at this

/-- The parameters of the program: 6 threads, `p2 = -1` and `p3 = 4000`. -/
def exP : Lbc.Params Nat := { Lbc.exParams with innerParts := 6 }

/-- `C130_random` for the default parameters. -/
example {shuf : List Nat → List Nat} (hs : (shuf (List.range 16)).Perm (List.range 16)) (val : Nat → ℚ) :=
  C130_random (val := val) (k := 4) hs (by decide) (by decide) (by decide) (P := exP) (fun l => .refl _) (p2 := -1) (p3 := 4000)
    (.inr (by decide)) Int.toNat 0 true

/-- The file of C122 with two parts: rows 0 and 1 are not connected. -/
theorem exTwoParts_not_chain : ∃ j, j + 1 < 3 ∧
    ¬ Fill (fun k i => Uses [(0, 0, (4 : ℚ)), (2, 0, -5), (1, 1, 6), (2, 2, 3)] i k) (j + 1) j := by
  refine ⟨0, by decide, fun h => ?_⟩
  cases h with
  | entry _ h =>
    obtain ⟨-, x, hx⟩ := h
    simp at hx
  | fill h1 _ _ _ => omega

/-- `C130_file` for it. -/
example := C130_file (P := exP) scanRat_ok (by decide) exTwoParts_ok exTwoParts_rat 0 (fun l => .refl _) (p2 := -1) (p3 := 4000)
  (.inr (by decide)) Int.toNat 0 true exTwoParts_not_chain

/-- `C130_file_metis` for it. -/
example {nd : NodeND} (hnd : OrdersNodes nd) :=
  C130_file_metis (P := exP) scanRat_ok (by decide) exTwoParts_ok exTwoParts_rat 0 (fun l => .refl _) (p2 := -1) (p3 := 4000)
  (.inr (by decide)) Int.toNat 0 hnd true

/-- `C130_chain` for the matrix of C121. -/
theorem C130_star_fails (debug : Bool) (r : Text) : run exP Int.toNat 0 (-1) 4000 none debug exStar (-1) 5 ≠ ok r :=
  C130_chain exStar_lower (by decide) exStar_chain exP Int.toNat 0 (-1) 4000 debug 5 r

end Verif.LbcMain
