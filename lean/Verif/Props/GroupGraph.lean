import Verif.Model.GroupGraph
import Verif.Proof.FusedRun
import Verif.Proof.RunDag
import Verif.Proof.LbcLoops

/-!
# C102: graphs of rows and groups, `src/group_utils.cpp`
-/

namespace Verif.GGraph
open Res Csc Hdagg FLevel

/-! ## Calls of `connect` -/

theorem pushes_spec {w : List (Nat × Nat)} {dag : List (List Nat)} (hw : ∀ e ∈ w, e.1 < dag.length) :
    wp (pushes w dag) (fun d => d.length = dag.length ∧
      ∀ v, d.getD v [] = dag.getD v [] ++ (w.filter (fun e => e.1 = v)).map (·.2)) := by
  unfold pushes
  refine wp_mono (forEach_wp (fun (pre : List (Nat × Nat)) (d : List (List Nat)) => d.length = dag.length ∧
      ∀ v, d.getD v [] = dag.getD v [] ++ (pre.filter (fun e => e.1 = v)).map (·.2)) w [] _
      ⟨rfl, by simp⟩ ?_) (by simp)
  rintro p ⟨a, b⟩ t d heq ⟨h1, h2⟩
  rw [List.nil_append] at heq
  have ha : a < dag.length := hw (a, b) (by rw [heq]; simp)
  unfold connect
  dsimp only
  rw [rd_getD [] (by omega), ok_bind, wr_eq (by omega), wp_ok]
  refine ⟨by simpa using h1, fun v => ?_⟩
  rw [getD_set, List.filter_append, List.map_append, ← List.append_assoc, ← h2]
  by_cases e : a = v
  · subst e
    rw [if_pos ⟨rfl, by omega⟩]
    simp
  · rw [if_neg (fun h => e h.1)]
    simp [e]

theorem eq_of_getD {d d' : List (List Nat)} (hl : d.length = d'.length)
    (h : ∀ v, d.getD v [] = d'.getD v []) : d = d' := by
  refine List.ext_getElem hl (fun v h1 h2 => ?_)
  have := h v
  rwa [List.getD_eq_getElem _ _ h1, List.getD_eq_getElem _ _ h2] at this

/-- Two orders of the calls with the same calls for every node give the same graph. -/
theorem pushes_congr {w w' : List (Nat × Nat)} {dag : List (List Nat)} (hw : ∀ e ∈ w, e.1 < dag.length)
    (hw' : ∀ e ∈ w', e.1 < dag.length)
    (h : ∀ v, w.filter (fun e => e.1 = v) = w'.filter (fun e => e.1 = v)) : pushes w dag = pushes w' dag := by
  obtain ⟨d, a1, a2, a3⟩ := wp_iff.1 (pushes_spec hw)
  obtain ⟨d', b1, b2, b3⟩ := wp_iff.1 (pushes_spec hw')
  have e : d = d' := eq_of_getD (by rw [a2, b2]) (fun v => by rw [a3, b3, h])
  rw [a1, b1, e]

theorem pushes_append (w w' : List (Nat × Nat)) (dag : List (List Nat)) :
    pushes (w ++ w') dag = (do let d ← pushes w dag; pushes w' d) := by
  unfold pushes
  exact forEach_append _ _ _ _

/-! ## The rows -/

variable {g : Csc}

theorem dropLast_eq_slice {c : Nat} (h : g.WF) (hc : c < g.n) :
    (g.col c).dropLast = slice g.i (g.ptr c) (g.ptr (c + 1) - 1) := by
  have := h.col_length hc
  unfold slice
  rw [List.dropLast_eq_take, this, col, List.take_take]
  congr 1
  omega

/-- **C102**: the graph of the rows of a matrix in row format (`g.col i` are the columns of row `i`, the last of
which is the diagonal): row `i` is appended to the list of node `v` exactly if an entry of row `i` other than its
last one is in column `v`, `v ≠ i`; new entries come in increasing order. -/
theorem C102_rows (hwf : g.WF) {dag : List (List Nat)} (hd : g.n ≤ dag.length) :
    ∃ d, rowsDep g.n g.p g.i dag = ok d ∧ d.length = dag.length ∧
      ∀ v, ∃ new, d.getD v [] = dag.getD v [] ++ new ∧ new.Pairwise (· ≤ ·) ∧
        ∀ i, i ∈ new ↔ i < g.n ∧ v ≠ i ∧ v ∈ (g.col i).dropLast := by
  have key : rowsDep g.n g.p g.i dag = pushes ((List.range g.n).flatMap (fun i =>
      ((g.col i).dropLast.filter (fun v => decide (v ≠ i))).map (fun v => (v, i)))) dag := by
    unfold rowsDep pushes
    rw [← forEach_flat, ← Util.forRange_eq_forEach]
    refine Blocked.forRange_congr (fun i _ hi s => ?_) dag
    have hm := hwf.mono i hi
    have hle := hwf.ptr_le (a := i + 1) (by omega)
    have hb := hwf.bound
    rw [hwf.rd_p (by omega), ok_bind, hwf.rd_p (by omega), ok_bind, Util.forEach_map, ← forEach_ite,
      dropLast_eq_slice hwf hi]
    by_cases h : g.ptr i ≤ g.ptr (i + 1) - 1
    · exact forRange_slice g.i (fun v s => if v ≠ i then connect v i s else ok s) s h (by omega)
    · rw [forRange_empty _ _ (by omega)]
      unfold slice
      rw [show g.ptr (i + 1) - 1 - g.ptr i = 0 by omega]
      rfl
  have hw : ∀ e ∈ (List.range g.n).flatMap (fun i =>
      ((g.col i).dropLast.filter (fun v => decide (v ≠ i))).map (fun v => (v, i))), e.1 < dag.length := by
    intro e he
    simp only [List.mem_flatMap, List.mem_range, List.mem_map, List.mem_filter] at he
    obtain ⟨i, hi, v, ⟨hv, _⟩, rfl⟩ := he
    have := hwf.range i hi v (List.mem_of_mem_dropLast hv)
    dsimp only
    omega
  obtain ⟨d, d1, d2, d3⟩ := wp_iff.1 (pushes_spec hw)
  refine ⟨d, by rw [key, d1], d2, fun v => ⟨_, d3 v, ?_, fun i => ?_⟩⟩
  · rw [List.pairwise_map]
    refine List.Pairwise.filter _ ?_
    rw [List.pairwise_flatMap]
    refine ⟨fun i _ => ?_, ?_⟩
    · rw [List.pairwise_map]
      exact List.pairwise_of_forall (fun _ _ => Nat.le_refl _)
    · refine List.pairwise_lt_range.imp ?_
      intro a b hab x hx y hy
      rw [List.mem_map] at hx hy
      obtain ⟨_, _, rfl⟩ := hx
      obtain ⟨_, _, rfl⟩ := hy
      exact Nat.le_of_lt hab
  · simp only [List.mem_map, List.mem_filter, List.mem_flatMap, List.mem_range, decide_eq_true_eq, Prod.exists]
    constructor
    · rintro ⟨a, b, ⟨⟨i', h1, v', ⟨h2, h3⟩, h4⟩, rfl⟩, rfl⟩
      cases h4
      exact ⟨h1, h3, h2⟩
    · rintro ⟨h1, h2, h3⟩
      exact ⟨v, i, ⟨⟨i, h1, v, ⟨h3, h2⟩, rfl⟩, rfl⟩, rfl⟩

/-! ## The parallel loop over the groups -/

section
variable {G : Grouping} {inv : List Nat} {n : Nat}

theorem groupRows_slice (G : Grouping) (j : Nat) :
    groupRows G.ptr G.set j = slice G.set (G.ptr.getD j 0) (G.ptr.getD (j + 1) 0) := rfl

theorem mem_lt (hG : G.Partition n) {v j : Nat} (hj : j < G.num) (h : v ∈ groupRows G.ptr G.set j) : v < n :=
  hG.mem_lt ⟨hj, h⟩

theorem forRange_group (hG : G.Partition n) {j : Nat} (hj : j < G.num) {σ : Type} (f : Nat → σ → Res σ) (s : σ) :
    (do
      let lo ← rd G.ptr j
      let hi ← rd G.ptr (j + 1)
      forRange lo hi (fun k s => do
        let v ← rd G.set k
        f v s) s) = forEach (groupRows G.ptr G.set j) f s := by
  have hl := hG.ptr.len
  have hs := hG.set_len
  have hle := hG.ptr.dle (b := j + 1) (by omega)
  rw [rd_getD 0 (by omega), ok_bind, rd_getD 0 (by omega), ok_bind, groupRows_slice]
  exact forRange_slice G.set f s (hG.ptr.dmono hj) (by omega)

theorem forEach_filter_push (i : Nat) (f : Nat → Nat) (l acc : List Nat) :
    forEach l (fun y t => if f y ≠ i then ok (t ++ [f y]) else ok t) acc
      = ok (acc ++ (l.map f).filter (fun s => decide (s ≠ i))) := by
  induction l generalizing acc with
  | nil => simp [forEach]
  | cons a l ih =>
    show (if f a ≠ i then ok (acc ++ [f a]) else ok acc) >>= _ = _
    by_cases h : f a = i
    · rw [if_neg (by simpa using h), ok_bind, ih, List.map_cons, List.filter_cons_of_neg (by simpa using h)]
    · rw [if_pos h, ok_bind, ih, List.map_cons, List.filter_cons_of_pos (by simpa using h), List.append_assoc]
      rfl

theorem forEach_flat_push {l : List Nat} {k : Nat → List Nat} {f : Nat → List Nat → Res (List Nat)}
    (h : ∀ a ∈ l, ∀ s, f a s = ok (s ++ k a)) (acc : List Nat) :
    forEach l f acc = ok (acc ++ l.flatMap k) := by
  induction l generalizing acc with
  | nil => simp [forEach]
  | cons a l ih =>
    show f a acc >>= _ = _
    rw [h a (by simp), ok_bind, List.flatMap_cons, ← List.append_assoc]
    exact ih (fun b hb => h b (List.mem_cons_of_mem _ hb)) _

/-- The groups that iteration `i` of the parallel loop finds. -/
theorem ic0Found_eq (hwf : g.WF) (hG : G.Partition g.n) (hi : g.n ≤ inv.length) {i : Nat} (hj : i < G.num) :
    ic0Found G.ptr G.set inv g.p g.i i = ok ((groupRows G.ptr G.set i).flatMap (fun c =>
      (((g.col c).tail).map (fun r => inv.getD r 0)).filter (fun s => decide (s ≠ i)))) := by
  unfold ic0Found
  refine (forRange_group hG hj _ _).trans ?_
  rw [forEach_flat_push (k := fun c =>
      (((g.col c).tail).map (fun r => inv.getD r 0)).filter (fun s => decide (s ≠ i))), List.nil_append]
  intro c hc s
  have hcn := mem_lt hG hj hc
  have hle := hwf.ptr_le (a := c + 1) (by omega)
  have hb := hwf.bound
  rw [hwf.rd_p (by omega), ok_bind, hwf.rd_p (by omega), ok_bind, ← forEach_filter_push, tail_eq_slice]
  have e : ∀ s, forEach (slice g.i (g.ptr c + 1) (g.ptr (c + 1))) (fun r acc => do
      let sid ← rd inv r
      if sid ≠ i then ok (acc ++ [sid]) else ok acc) s
      = forEach (slice g.i (g.ptr c + 1) (g.ptr (c + 1)))
        (fun y t => if inv.getD y 0 ≠ i then ok (t ++ [inv.getD y 0]) else ok t) s := by
    intro s
    refine forEach_congr (fun r hr s => ?_) s
    rw [← tail_eq_slice] at hr
    have := hwf.range c hcn r (List.mem_of_mem_tail hr)
    rw [rd_getD 0 (by omega), ok_bind]
  rw [← e]
  by_cases h : g.ptr c + 1 ≤ g.ptr (c + 1)
  · exact forRange_slice g.i (fun r acc => do
      let sid ← rd inv r
      if sid ≠ i then ok (acc ++ [sid]) else ok acc) s h (by omega)
  · rw [forRange_empty _ _ (by omega)]
    unfold slice
    rw [show g.ptr (c + 1) - (g.ptr c + 1) = 0 by omega]
    rfl

theorem sequential_interleaved (ngroup : Nat) (found : Nat → List Nat) :
    Interleaved ngroup found ((List.range ngroup).flatMap (fun i => (found i).map (fun s => (i, s)))) := by
  refine ⟨fun e he => ?_, fun i hi => ?_⟩
  · simp only [List.mem_flatMap, List.mem_range, List.mem_map] at he
    obtain ⟨i, hi, s, _, rfl⟩ := he
    exact hi
  · have key : ∀ m, (((List.range m).flatMap (fun i => (found i).map (fun s => (i, s)))).filter
        (fun e => decide (e.1 = i))) = if i < m then (found i).map (fun s => (i, s)) else [] := by
      intro m
      induction m with
      | zero => rfl
      | succ m ih =>
        rw [List.range_succ, List.flatMap_append, List.filter_append, ih]
        simp only [List.flatMap_cons, List.flatMap_nil, List.append_nil]
        by_cases h : i = m
        · subst h
          rw [if_neg (by omega), if_pos (by omega), List.nil_append, List.filter_eq_self]
          simp
        · have : ((found m).map (fun s => (m, s))).filter (fun e => decide (e.1 = i)) = [] := by
            rw [List.filter_eq_nil_iff]
            intro e he
            rw [List.mem_map] at he
            obtain ⟨s, _, rfl⟩ := he
            simpa using fun h' => h h'.symm
          rw [this, List.append_nil]
          by_cases h' : i < m
          · rw [if_pos h', if_pos (by omega)]
          · rw [if_neg h', if_neg (by omega)]
    rw [key, if_pos hi]

/-- **C102**: `fs_ic0csc_inspector_group` with any number of threads: whatever the order in which the threads
make their calls of `connect`, the result is the same.  Group `s` is appended to the list of group `i` exactly if
some column of group `i` has, after its first entry, a row of group `s ≠ i`. -/
theorem C102_parallel (hwf : g.WF) (hG : G.Partition g.n) (hi : g.n ≤ inv.length) {dag : List (List Nat)}
    (hd : G.num ≤ dag.length) :
    ∃ found : Nat → List Nat, ∃ d,
      (∀ i, i < G.num → ic0Found G.ptr G.set inv g.p g.i i = ok (found i)) ∧
      ic0Groups G.num G.ptr G.set inv g.p g.i dag = ok d ∧
      (∀ w, Interleaved G.num found w → pushes w dag = ok d) ∧ d.length = dag.length ∧
      (∀ i, G.num ≤ i → d.getD i [] = dag.getD i []) ∧
      ∀ i, i < G.num → ∃ new, d.getD i [] = dag.getD i [] ++ new ∧
        ∀ s, s ∈ new ↔ s ≠ i ∧ ∃ c r, G.Mem c i ∧ r ∈ (g.col c).tail ∧ inv.getD r 0 = s := by
  obtain ⟨found, hf⟩ : ∃ f : Nat → List Nat, f = fun i => (groupRows G.ptr G.set i).flatMap (fun c =>
      (((g.col c).tail).map (fun r => inv.getD r 0)).filter (fun s => decide (s ≠ i))) := ⟨_, rfl⟩
  have hfound : ∀ i, i < G.num → ic0Found G.ptr G.set inv g.p g.i i = ok (found i) := by
    intro i h
    rw [hf]
    exact ic0Found_eq hwf hG hi h
  obtain ⟨w0, hw0⟩ : ∃ w, w = (List.range G.num).flatMap (fun i => (found i).map (fun s => (i, s))) := ⟨_, rfl⟩
  have hI0 : Interleaved G.num found w0 := hw0 ▸ sequential_interleaved G.num found
  have hlt : ∀ w, Interleaved G.num found w → ∀ e ∈ w, e.1 < dag.length := by
    intro w hw e he
    have := hw.1 e he
    omega
  obtain ⟨d, d1, d2, d3⟩ := wp_iff.1 (pushes_spec (hlt w0 hI0))
  have hfil : ∀ w, Interleaved G.num found w → ∀ v, w.filter (fun e => e.1 = v) = w0.filter (fun e => e.1 = v) := by
    intro w hw v
    by_cases hv : v < G.num
    · rw [hw.2 v hv, hI0.2 v hv]
    · have h0 : ∀ w, Interleaved G.num found w → w.filter (fun e => e.1 = v) = [] := by
        intro w hw
        rw [List.filter_eq_nil_iff]
        intro e he
        have := hw.1 e he
        simp only [decide_eq_true_eq]
        omega
      rw [h0 w hw, h0 w0 hI0]
  refine ⟨found, d, hfound, ?_, fun w hw => ?_, d2, fun i hi => ?_, fun i hi => ⟨_, d3 i, fun s => ?_⟩⟩
  · have : ic0Groups G.num G.ptr G.set inv g.p g.i dag = pushes w0 dag := by
      unfold ic0Groups pushes
      rw [hw0, ← forEach_flat, ← Util.forRange_eq_forEach]
      refine Blocked.forRange_congr (fun i _ hi s => ?_) dag
      rw [hfound i hi, ok_bind]
    rw [this, d1]
  · rw [pushes_congr (hlt w hw) (hlt w0 hI0) (hfil w hw), d1]
  · rw [d3 i]
    have : w0.filter (fun e => e.1 = i) = [] := by
      rw [List.filter_eq_nil_iff]
      intro e he
      have := hI0.1 e he
      simp only [decide_eq_true_eq]
      omega
    rw [this]
    simp
  · rw [hI0.2 i hi, List.map_map]
    have : ((·.2) ∘ fun s => (i, s)) = (id : Nat → Nat) := rfl
    rw [this, List.map_id, hf]
    simp only [List.mem_flatMap, List.mem_filter, List.mem_map, decide_eq_true_eq]
    constructor
    · rintro ⟨c, hc, ⟨r, hr, rfl⟩, hne⟩
      exact ⟨hne, c, r, ⟨hi, hc⟩, hr, rfl⟩
    · rintro ⟨hne, c, r, ⟨_, hc⟩, hr, rfl⟩
      exact ⟨c, hc, ⟨r, hr, rfl⟩, hne⟩

/-! ## The graph of the groups -/

theorem groupDag_eq {dag : List (List Nat)} (hG : G.Partition n) (hi : n ≤ inv.length) (hd : n ≤ dag.length)
    (hv : ∀ x, x < n → ∀ y ∈ dag.getD x [], y < n) :
    groupDag dag G.ptr G.set inv G.num = ok ((List.range G.num).map (fun i => Group.stdUnique
      (((groupRows G.ptr G.set i).flatMap (fun x => ((dag.getD x []).map (fun y => inv.getD y 0)).filter
        (fun s => decide (s ≠ i)))).insertionSort (· ≤ ·)))) := by
  unfold groupDag
  have key : ∀ m, m ≤ G.num → ∀ out, forRange 0 m (fun i out => do
      let lo ← rd G.ptr i
      let hi ← rd G.ptr (i + 1)
      let t ← forRange lo hi (fun j t => do
        let x ← rd G.set j
        let l ← rd dag x
        forEach l (fun y t => do
          let s ← rd inv y
          if s ≠ i then ok (t ++ [s]) else ok t) t) []
      ok (out ++ [Group.stdUnique (t.insertionSort (· ≤ ·))])) out = ok (out ++ (List.range m).map (fun i =>
        Group.stdUnique (((groupRows G.ptr G.set i).flatMap (fun x =>
          ((dag.getD x []).map (fun y => inv.getD y 0)).filter
            (fun s => decide (s ≠ i)))).insertionSort (· ≤ ·)))) := by
    intro m
    induction m with
    | zero => intro _ out; simp [forRange, forN]
    | succ m ih =>
      intro hm out
      rw [Lbc.forRange_succ_last (Nat.zero_le m), ih (by omega), ok_bind]
      have hgr := forRange_group hG (show m < G.num by omega) (fun x t => do
        let l ← rd dag x
        forEach l (fun y t => do
          let s ← rd inv y
          if s ≠ m then ok (t ++ [s]) else ok t) t) []
      rw [forEach_flat_push (k := fun x => ((dag.getD x []).map (fun y => inv.getD y 0)).filter
        (fun s => decide (s ≠ m)))] at hgr
      · obtain ⟨a, a1, a2⟩ := Blocked.bind_inv hgr
        obtain ⟨b, b1, b2⟩ := Blocked.bind_inv a2
        rw [a1, ok_bind, b1, ok_bind, b2, ok_bind, List.range_succ, List.map_append, ← List.append_assoc]
        simp
      · intro x hx s
        have hxn := mem_lt hG (show m < G.num by omega) hx
        rw [rd_getD [] (by omega), ok_bind, ← forEach_filter_push]
        refine forEach_congr (fun y hy s => ?_) s
        have := hv x hxn y hy
        rw [rd_getD 0 (by omega), ok_bind]
  rw [key G.num (Nat.le_refl _), List.nil_append]

/-- **C102**: `Group_DAG`: the result has one strictly increasing list per group, and group `j` is in the list of
group `i` exactly if `i ≠ j` and a node of group `i` has a successor in group `j`. -/
theorem C102_group_dag {dag : List (List Nat)} (hG : G.Partition n)
    (hinv : ∀ v, v < n → ∃ j, inv[v]? = some j ∧ G.Mem v j) (hd : n ≤ dag.length)
    (hv : ∀ x, x < n → ∀ y ∈ dag.getD x [], y < n) :
    ∃ d, groupDag dag G.ptr G.set inv G.num = ok d ∧ d.length = G.num ∧
      (∀ i, i < G.num → (d.getD i []).Pairwise (· < ·)) ∧
      ∀ i, i < G.num → ∀ j, j ∈ d.getD i [] ↔
        i ≠ j ∧ ∃ x y, G.Mem x i ∧ G.Mem y j ∧ y ∈ dag.getD x [] := by
  have hil : n ≤ inv.length := by
    by_contra h
    obtain ⟨j, h1, _⟩ := hinv inv.length (by omega)
    rw [List.getElem?_eq_none (Nat.le_refl _)] at h1
    cases h1
  have hget : ∀ i, i < G.num → ((List.range G.num).map (fun i => Group.stdUnique
      (((groupRows G.ptr G.set i).flatMap (fun x => ((dag.getD x []).map (fun y => inv.getD y 0)).filter
        (fun s => decide (s ≠ i)))).insertionSort (· ≤ ·)))).getD i [] = Group.stdUnique
      (((groupRows G.ptr G.set i).flatMap (fun x => ((dag.getD x []).map (fun y => inv.getD y 0)).filter
        (fun s => decide (s ≠ i)))).insertionSort (· ≤ ·)) := by
    intro i hi
    rw [List.getD_eq_getElem _ _ (by simpa using hi)]
    simp
  have hInv : ∀ y j, y < n → (inv.getD y 0 = j ↔ G.Mem y j) := by
    intro y j hy
    obtain ⟨j', h1, h2⟩ := hinv y hy
    have e : inv.getD y 0 = j' := by rw [List.getD_eq_getElem?_getD, h1]; rfl
    rw [e]
    constructor
    · rintro rfl; exact h2
    · intro h3
      exact hG.unique h2 h3
  refine ⟨_, groupDag_eq hG hil hd hv, by simp, fun i hi => ?_, fun i hi j => ?_⟩
  · rw [hget i hi]
    exact Group.stdUnique_sorted _ (List.pairwise_insertionSort _ _)
  · rw [hget i hi, Group.mem_stdUnique, List.mem_insertionSort]
    simp only [List.mem_flatMap, List.mem_filter, List.mem_map, decide_eq_true_eq]
    constructor
    · rintro ⟨x, hx, ⟨y, hy, rfl⟩, hne⟩
      have hxn := mem_lt hG hi hx
      exact ⟨fun h => hne h.symm, x, y, ⟨hi, hx⟩, (hInv y _ (hv x hxn y hy)).1 rfl, hy⟩
    · rintro ⟨hne, x, y, ⟨_, hx⟩, hy, hxy⟩
      have hxn := mem_lt hG hi hx
      exact ⟨x, hx, ⟨y, hxy, (hInv y j (hv x hxn y hxy)).2 hy⟩, fun h => hne h.symm⟩

end

/-! ## The test for cycles -/

theorem circles_eq {dag : List (List Nat)} (hv : ∀ x, x < dag.length → ∀ y ∈ dag.getD x [], y < dag.length) :
    circles dag = ok ((List.range dag.length).flatMap (fun i =>
      ((dag.getD i []).filter (fun t => decide (i ∈ dag.getD t []))).map (fun t => (i, t)))) := by
  have hin : ∀ (i : Nat) (l : List Nat) (out : List (Nat × Nat)), (∀ t ∈ l, t < dag.length) →
      forEach l (fun t out => do
        let b ← rd dag t
        if i ∈ b then ok (out ++ [(i, t)]) else ok out) out
      = ok (out ++ (l.filter (fun t => decide (i ∈ dag.getD t []))).map (fun t => (i, t))) := by
    intro i l
    induction l with
    | nil => intro out _; simp [forEach]
    | cons a l ih =>
      intro out hl
      show (rd dag a >>= _) >>= _ = _
      rw [rd_getD [] (hl a (by simp)), ok_bind]
      by_cases h : i ∈ dag.getD a []
      · rw [if_pos h, ok_bind, List.filter_cons_of_pos (by simpa using h), List.map_cons]
        have := ih (out ++ [(i, a)]) (fun t ht => hl t (List.mem_cons_of_mem _ ht))
        rw [List.append_assoc] at this
        exact this
      · rw [if_neg h, ok_bind, List.filter_cons_of_neg (by simpa using h)]
        exact ih out (fun t ht => hl t (List.mem_cons_of_mem _ ht))
  unfold circles
  have key : ∀ m, m ≤ dag.length → forRange 0 m (fun i out => do
      let l ← rd dag i
      forEach l (fun t out => do
        let b ← rd dag t
        if i ∈ b then ok (out ++ [(i, t)]) else ok out) out) [] = ok ((List.range m).flatMap (fun i =>
      ((dag.getD i []).filter (fun t => decide (i ∈ dag.getD t []))).map (fun t => (i, t)))) := by
    intro m
    induction m with
    | zero => intro _; rfl
    | succ m ih =>
      intro hm
      rw [Lbc.forRange_succ_last (Nat.zero_le m), ih (by omega), ok_bind, rd_getD [] (by omega), ok_bind,
        hin m _ _ (hv m (by omega)), List.range_succ, List.flatMap_append]
      simp
  exact key _ (Nat.le_refl _)

/-- **C102**: `detectDAGCircle` reports exactly the pairs of nodes with edges in both directions (and the nodes
with an edge to themselves). -/
theorem C102_circles {dag : List (List Nat)} (hv : ∀ x, x < dag.length → ∀ y ∈ dag.getD x [], y < dag.length) :
    ∃ out, circles dag = ok out ∧ ∀ a b, (a, b) ∈ out ↔ b ∈ dag.getD a [] ∧ a ∈ dag.getD b [] := by
  refine ⟨_, circles_eq hv, fun a b => ?_⟩
  simp only [List.mem_flatMap, List.mem_range, List.mem_map, List.mem_filter, decide_eq_true_eq, Prod.mk.injEq]
  constructor
  · rintro ⟨i, _, t, ⟨h1, h2⟩, rfl, rfl⟩
    exact ⟨h1, h2⟩
  · rintro ⟨h1, h2⟩
    refine ⟨a, ?_, b, ⟨h1, h2⟩, rfl, rfl⟩
    by_contra h
    rw [List.getD_eq_default _ _ (by omega)] at h1
    simp at h1

/-- **C102**, limit of the code: longer cycles are not found, although a graph with any cycle is not a DAG. -/
theorem C102_long_cycle_unseen : circles [[1], [2], [0]] = ok [] := by decide

/-! ## Groups of consecutive nodes -/

/-- All nodes of group `i` come before those of group `j`. -/
theorem before_of_edge {G : Grouping} {n : Nat} (hG : G.Partition n)
    (hc : ∀ j u v w, G.Mem u j → G.Mem w j → u ≤ v → v ≤ w → G.Mem v j) {i j x y : Nat} (hne : i ≠ j)
    (hx : G.Mem x i) (hy : G.Mem y j) (hxy : x < y) : ∀ u w, G.Mem u i → G.Mem w j → u < w := by
  have h1 : ∀ u, G.Mem u i → u < y := by
    intro u hu
    by_contra h
    exact hne (hG.unique (hc i x y u hx hu (by omega) (by omega)) hy)
  intro u w hu hw
  by_contra h
  have := h1 u hu
  exact hne (hG.unique hu (hc j w u y hw hy (by omega) (by omega)))

/-- **C102**: rows of a lower triangular matrix in groups of consecutive rows: the graph that `Group_DAG` makes of
the graph of the rows has no cycle of any length, and `detectDAGCircle` prints nothing for it. -/
theorem C102_consecutive {G : Grouping} {inv : List Nat} (hwf : g.WF)
    (hlow : ∀ i, i < g.n → ∀ v ∈ (g.col i).dropLast, v < i) (hG : G.Partition g.n)
    (hc : ∀ j u v w, G.Mem u j → G.Mem w j → u ≤ v → v ≤ w → G.Mem v j)
    (hinv : ∀ v, v < g.n → ∃ j, inv[v]? = some j ∧ G.Mem v j) :
    ∃ rows d, rowsDep g.n g.p g.i (List.replicate g.n []) = ok rows ∧
      groupDag rows G.ptr G.set inv G.num = ok d ∧ d.length = G.num ∧
      (∀ i j, i < G.num → (j ∈ d.getD i [] ↔
        i ≠ j ∧ ∃ x y, G.Mem x i ∧ G.Mem y j ∧ x ∈ (g.col y).dropLast)) ∧
      (∀ i, ¬ Relation.TransGen (fun i j => j ∈ d.getD i []) i i) ∧ circles d = ok [] := by
  obtain ⟨rows, r1, r2, r3⟩ := C102_rows (dag := List.replicate g.n []) hwf (by simp)
  rw [List.length_replicate] at r2
  have hrow : ∀ x y, y ∈ rows.getD x [] ↔ y < g.n ∧ x ∈ (g.col y).dropLast := by
    intro x y
    obtain ⟨new, n1, _, n2⟩ := r3 x
    have e : (List.replicate g.n ([] : List Nat)).getD x [] = [] := by
      rw [List.getD_eq_getElem?_getD, List.getElem?_replicate]
      split <;> rfl
    rw [n1, e, List.nil_append, n2]
    constructor
    · rintro ⟨a, _, b⟩; exact ⟨a, b⟩
    · rintro ⟨a, b⟩
      have := hlow y a x b
      exact ⟨a, by omega, b⟩
  obtain ⟨d, d1, d2, _, d4⟩ := C102_group_dag (dag := rows) hG hinv (by omega)
    (fun x _ y hy => ((hrow x y).1 hy).1)
  have hedge : ∀ i j, i < G.num → (j ∈ d.getD i [] ↔
        i ≠ j ∧ ∃ x y, G.Mem x i ∧ G.Mem y j ∧ x ∈ (g.col y).dropLast) := by
    intro i j hi
    rw [d4 i hi]
    constructor
    · rintro ⟨hne, x, y, hx, hy, h⟩
      exact ⟨hne, x, y, hx, hy, ((hrow x y).1 h).2⟩
    · rintro ⟨hne, x, y, hx, hy, h⟩
      exact ⟨hne, x, y, hx, hy, (hrow x y).2 ⟨hG.mem_lt hy, h⟩⟩
  have hstep : ∀ i j, j ∈ d.getD i [] →
      (∃ x, G.Mem x i) ∧ (∃ y, G.Mem y j) ∧ ∀ u w, G.Mem u i → G.Mem w j → u < w := by
    intro i j h
    have hi : i < G.num := by
      by_contra hn
      rw [List.getD_eq_default _ _ (by omega)] at h
      simp at h
    obtain ⟨hne, x, y, hx, hy, hxy⟩ := (hedge i j hi).1 h
    exact ⟨⟨x, hx⟩, ⟨y, hy⟩, before_of_edge hG hc hne hx hy (hlow y (hG.mem_lt hy) x hxy)⟩
  have htrans : ∀ i j, Relation.TransGen (fun i j => j ∈ d.getD i []) i j →
      (∃ x, G.Mem x i) ∧ (∃ y, G.Mem y j) ∧ ∀ u w, G.Mem u i → G.Mem w j → u < w := by
    intro i j h
    induction h with
    | single h => exact hstep _ _ h
    | tail _ h ih =>
      obtain ⟨a1, ⟨m, hm⟩, a3⟩ := ih
      obtain ⟨_, b2, b3⟩ := hstep _ _ h
      exact ⟨a1, b2, fun u w hu hw => Nat.lt_trans (a3 u m hu hm) (b3 m w hm hw)⟩
  have hno : ∀ i, ¬ Relation.TransGen (fun i j => j ∈ d.getD i []) i i := by
    intro i h
    obtain ⟨⟨x, hx⟩, _, h3⟩ := htrans i i h
    exact Nat.lt_irrefl _ (h3 x x hx hx)
  refine ⟨rows, d, r1, d1, d2, hedge, hno, ?_⟩
  obtain ⟨out, o1, o2⟩ := C102_circles (dag := d) (by
    intro i hi j hj
    obtain ⟨_, _, y, _, hy, _⟩ := (hedge i j (by omega)).1 hj
    rw [d2]
    exact hy.1)
  rw [o1]
  cases out with
  | nil => rfl
  | cons e l =>
    obtain ⟨a, b⟩ := e
    obtain ⟨h1, h2⟩ := (o2 a b).1 (by simp)
    exact absurd (Relation.TransGen.tail (.single h1) h2) (hno a)

/-- Groups that are not intervals: rows 0 and 2 in one group, row 1 in the other, each row depending on the row
before it.  The circle is reported. -/
example : (do
    let rows ← rowsDep 3 [0, 1, 3, 5] [0, 0, 1, 1, 2] [[], [], []]
    let d ← groupDag rows [0, 2, 3] [0, 2, 1] [0, 1, 0] 2
    circles d) = ok [(0, 1), (1, 0)] := by decide

/-- Two groups `{0, 1}` and `{2}` of the rows of a matrix, the graph of its rows and that of the groups. -/
example : rowsDep 3 [0, 1, 3, 6] [0, 0, 1, 0, 1, 2] [[], [], []] = ok [[1, 2], [2], []] ∧
    groupDag [[1, 2], [2], []] [0, 2, 3] [0, 1, 2] [0, 0, 1] 2 = ok [[1], []] ∧
    ic0Groups 2 [0, 2, 3] [0, 1, 2] [0, 0, 1] [0, 3, 5, 6] [0, 1, 2, 1, 2, 2] [[], []] = ok [[1, 1], []] ∧
    circles [[1], [0, 1]] = ok [(0, 1), (1, 0), (1, 1)] := by decide

/-- The hypotheses of `C102_group_dag` hold for these groups. -/
example : (⟨2, [0, 2, 3], [0, 1, 2]⟩ : Grouping).Partition 3 ∧
    ∀ v, v < 3 → ∃ j, [0, 0, 1][v]? = some j ∧ (⟨2, [0, 2, 3], [0, 1, 2]⟩ : Grouping).Mem v j := by
  refine ⟨⟨PtrOk.mk' (by decide) (by decide) (by decide) (by decide), by decide⟩, fun v hv => ?_⟩
  have : v = 0 ∨ v = 1 ∨ v = 2 := by omega
  rcases this with rfl | rfl | rfl
  · exact ⟨0, rfl, by unfold Grouping.Mem; decide⟩
  · exact ⟨0, rfl, by unfold Grouping.Mem; decide⟩
  · exact ⟨1, rfl, by unfold Grouping.Mem; decide⟩

end Verif.GGraph
