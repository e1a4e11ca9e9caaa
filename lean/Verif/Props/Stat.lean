import Verif.Proof.Stat

/-!
# C90: the statistics of the solvers

`fs_csr_stat`, `ic0_csc_stat`, `fs_csr_levelset_stat`, `sptrsv_csr_lbc_stat`,
`sptrsv_csr_group_lbc_stat` (example/sptrsv_src/executor.cpp 34-265).  Vocabulary: `load`, `Spread`,
`Csc.updates`, `Csc.compares` (Verif/Spec/Stat.lean), `PtrOk`, `groupRows` (Verif/Spec/Sched.lean).
-/

namespace Verif.Stat
open Res Csc Hdagg

variable {g : Csc}

/-- **C90** `fs_csr_stat`, for every matrix of non-empty rows: `2 nnz - n` operations and
`3 nnz - n` accesses. -/
theorem C90_csr_counts (hwf : g.WF) (hne : ∀ i, i < g.n → g.ptr i < g.ptr (i + 1)) :
    ∃ flops mem reuse, fsCsr g.n g.p g.i = ok (flops, mem, reuse) ∧
      flops + g.n = 2 * g.ptr g.n ∧ mem + g.n = 3 * g.ptr g.n := by
  obtain ⟨⟨a, b, c⟩, hr, h1, h2, -⟩ := wp_iff.1 (fsCsr_wp hwf hne)
  exact ⟨a, b, c, hr, h1, h2⟩

/-- **C90** `fs_csr_stat`: if no row stores an entry twice and each ends with its diagonal, the
reuse is the number of rows that depend on the row before. -/
theorem C90_csr_reuse (hwf : g.WF) (hlast : ∀ i, i < g.n → (g.col i).getLast? = some i)
    (hnd : ∀ i, i < g.n → (g.col i).Nodup) :
    ∃ flops mem reuse, fsCsr g.n g.p g.i = ok (flops, mem, reuse) ∧
      reuse = ((List.range' 1 (g.n - 1)).filter (fun i => decide (i - 1 ∈ g.col i))).length := by
  have hne : ∀ i, i < g.n → g.ptr i < g.ptr (i + 1) := by
    intro i hi
    have h1 := hlast i hi
    have h2 := hwf.col_length hi
    by_contra hc
    have : (g.col i).length = 0 := by omega
    rw [List.length_eq_zero_iff] at this
    rw [this] at h1
    simp at h1
  obtain ⟨⟨a, b, c⟩, hr, -, -, h3⟩ := wp_iff.1 (fsCsr_wp hwf hne)
  refine ⟨a, b, c, hr, ?_⟩
  dsimp only at h3
  rw [h3]
  have : ∀ l : List Nat, (∀ i ∈ l, 1 ≤ i ∧ i < g.n) →
      (l.map (fun i => (g.col i).dropLast.count (i - 1))).sum
        = (l.filter (fun i => decide (i - 1 ∈ g.col i))).length := by
    intro l
    induction l with
    | nil => intro _; rfl
    | cons i l ih =>
      intro hl
      have hi := hl i (by simp)
      have hcol : g.col i = (g.col i).dropLast ++ [i] := by
        have h1 := hlast i hi.2
        have hne' : g.col i ≠ [] := by
          intro hc; rw [hc] at h1; simp at h1
        have h2 := List.dropLast_append_getLast hne'
        rw [List.getLast?_eq_some_getLast hne'] at h1
        rw [Option.some.inj h1] at h2
        exact h2.symm
      have hcnt : (g.col i).dropLast.count (i - 1) = (g.col i).count (i - 1) := by
        conv_rhs => rw [hcol, List.count_append, List.count_singleton]
        rw [if_neg (by simp; omega)]
        rfl
      rw [List.map_cons, List.sum_cons, ih (fun j hj => hl j (by simp [hj])), hcnt, List.filter_cons]
      by_cases hm : i - 1 ∈ g.col i
      · rw [List.count_eq_one_of_mem (hnd i hi.2) hm, if_pos (by simpa using hm), List.length_cons]
        omega
      · rw [List.count_eq_zero_of_not_mem hm, if_neg (by simpa using hm)]
        omega
  refine this _ ?_
  intro i hi
  have := List.mem_range'_1.1 hi
  omega

/-- **C90** `ic0_csc_stat`, for every matrix of non-empty columns: one operation per column and per
entry and two per update; one access per entry and per comparison and three per update. -/
theorem C90_ic0_counts (hwf : g.WF) (hne : ∀ i, i < g.n → g.ptr i < g.ptr (i + 1)) :
    ∃ flops mem, ic0Csc g.n g.p g.i = ok (flops, mem, 0) ∧
      flops = g.ptr g.n + g.n + 2 * ((List.range g.n).map (fun i => g.updates (g.col i).tail)).sum ∧
      mem = g.ptr g.n + ((List.range g.n).map (fun i => g.compares (g.col i).tail)).sum
        + 3 * ((List.range g.n).map (fun i => g.updates (g.col i).tail)).sum := by
  obtain ⟨⟨a, b, c⟩, hr, h1, h2, h3⟩ := wp_iff.1 (ic0Csc_wp hwf hne)
  dsimp only at h1 h2 h3
  subst h3
  exact ⟨a, b, hr, h1, h2⟩

/-- With OpenMP: at least one thread, every iteration of a loop is run exactly once, in any order,
by one of the threads. -/
structure Threads.Ok (T : Threads) : Prop where
  pos : 0 < T.len
  tid : ∀ l j, T.tid l j < T.len
  order : ∀ l a b, (T.order l a b).Perm (List.range' a (b - a))

/-- **C90** `fs_csr_levelset_stat`, for every level set of groups, all numbers of threads and
assignments: the value of a level is the largest difference between the loads of two threads. -/
theorem C90_levelset_load {T : Threads} (hT : T.Ok) {Lp groupPtr groupSet levelPtr levelSet : List Nat}
    {levels m ngroup n : Nat} (hlp : PtrOk levelPtr levels m) (hls : m ≤ levelSet.length)
    (hlt : ∀ x ∈ levelSet.take m, x < ngroup) (hgp : PtrOk groupPtr ngroup n) (hgs : n ≤ groupSet.length)
    (hrow : ∀ x ∈ groupSet, x + 1 < Lp.length) {lcost : List Int} (hlc : levels ≤ lcost.length) :
    ∃ r, levelSetStat T Lp groupPtr groupSet levels levelPtr levelSet lcost = ok r ∧ r.length = lcost.length ∧
      ∀ l, l < levels → Spread T.len
        (load Lp (fun li => groupRows groupPtr groupSet (levelSet.getD li 0)) (T.tid l)
          (levelPtr.getD l 0) (levelPtr.getD (l + 1) 0)) (r.getD l 0) := by
  have hadd : Adds Lp (iterLevelSet Lp groupPtr groupSet levelSet)
      (fun li => groupRows groupPtr groupSet (levelSet.getD li 0)) 0 m := by
    intro j t cost _ hj ht
    unfold iterLevelSet
    rw [rd_getD 0 (show j < levelSet.length by omega), ok_bind]
    exact adds_block hgp hgs (fun x hx => hrow x (List.mem_of_mem_take hx))
      (hlt _ (List.mem_of_getElem? (i := j) (by
        rw [List.getElem?_take, if_pos hj, getElem?_getD 0 (show j < levelSet.length by omega)]))) ht
  obtain ⟨r, hr, hlen, h, -⟩ := wp_iff.1 (overLevels_wp hlp hT.pos hadd hT.tid hT.order hlc)
  exact ⟨r, hr, hlen, h⟩

/-- **C90** `sptrsv_csr_lbc_stat`, for every schedule. -/
theorem C90_lbc_load {T : Threads} (hT : T.Ok) {Lp : List Nat} {s : Sched} {m parts : Nat}
    (hlp : PtrOk s.levelPtr s.levels parts) (hpp : PtrOk s.partPtr parts m) (hns : m ≤ s.nodes.length)
    (hrow : ∀ x ∈ s.nodes.take m, x + 1 < Lp.length) {lcost : List Int} (hlc : s.levels ≤ lcost.length) :
    ∃ r, lbcStat T Lp s.levels s.levelPtr s.partPtr s.nodes lcost = ok r ∧ r.length = lcost.length ∧
      ∀ l, l < s.levels → Spread T.len
        (load Lp (block s.partPtr s.nodes) (T.tid l) (s.levelPtr.getD l 0) (s.levelPtr.getD (l + 1) 0))
        (r.getD l 0) := by
  have hadd : Adds Lp (iterLbc Lp s.partPtr s.nodes) (block s.partPtr s.nodes) 0 parts := by
    intro j t cost _ hj ht
    exact adds_block hpp hns hrow hj ht
  obtain ⟨r, hr, hlen, h, -⟩ := wp_iff.1 (overLevels_wp hlp hT.pos hadd hT.tid hT.order hlc)
  exact ⟨r, hr, hlen, h⟩

theorem adds_groups {Lp groupPtr groupSet : List Nat} {ngroup n t : Nat} (hgp : PtrOk groupPtr ngroup n)
    (hgs : n ≤ groupSet.length) (hrow : ∀ x ∈ groupSet, x + 1 < Lp.length) :
    ∀ (ps : List Nat) {cost : List Int}, t < cost.length → (∀ p ∈ ps, p < ngroup) →
    forEach ps (fun p c => do
      let a ← rd groupPtr p
      let b ← rd groupPtr (p + 1)
      forRange a b (fun k c => do
        let i ← rd groupSet k
        addRow Lp t i c) c) cost
      = ok (cost.set t (cost.getD t 0 + work Lp (ps.flatMap (groupRows groupPtr groupSet)))) := by
  intro ps
  induction ps with
  | nil =>
    intro cost ht _
    exact (addRows_ok [] ht (by simp))
  | cons p ps ih =>
    intro cost ht hp
    rw [forEach, adds_block hgp hgs (fun x hx => hrow x (List.mem_of_mem_take hx)) (hp p (by simp)) ht, ok_bind, ih (by simpa using ht)
      (fun q hq => hp q (by simp [hq])), List.set_set, getD_set, if_pos ⟨rfl, ht⟩, List.flatMap_cons,
      work_append, add_assoc]
    rfl

/-- **C90** `sptrsv_csr_group_lbc_stat`, for every schedule of groups. -/
theorem C90_group_load {T : Threads} (hT : T.Ok) {Lp groupPtr groupSet : List Nat} {s : Sched} {m parts ngroup n : Nat}
    (hlp : PtrOk s.levelPtr s.levels parts) (hpp : PtrOk s.partPtr parts m) (hns : m ≤ s.nodes.length)
    (hlt : ∀ x ∈ s.nodes.take m, x < ngroup) (hgp : PtrOk groupPtr ngroup n) (hgs : n ≤ groupSet.length)
    (hrow : ∀ x ∈ groupSet, x + 1 < Lp.length) {lcost : List Int} (hlc : s.levels ≤ lcost.length) :
    ∃ r, groupLbcStat T Lp s.levels s.levelPtr s.partPtr s.nodes groupPtr groupSet lcost = ok r ∧ r.length = lcost.length ∧
      ∀ l, l < s.levels → Spread T.len
        (load Lp (fun q => (block s.partPtr s.nodes q).flatMap (groupRows groupPtr groupSet)) (T.tid l)
          (s.levelPtr.getD l 0) (s.levelPtr.getD (l + 1) 0)) (r.getD l 0) := by
  have hadd : Adds Lp (iterGroupLbc Lp s.partPtr s.nodes groupPtr groupSet)
      (fun q => (block s.partPtr s.nodes q).flatMap (groupRows groupPtr groupSet)) 0 parts := by
    intro j t cost _ hj ht
    unfold iterGroupLbc
    have hl := hpp.len
    have h1 := hpp.dle (b := j + 1) (by omega)
    have h2 := hpp.dmono hj
    rw [rd_getD 0 (by omega), ok_bind, rd_getD 0 (by omega), ok_bind]
    unfold forRange
    rw [forRange_rd s.nodes (fun p c => do
      let a ← rd groupPtr p
      let b ← rd groupPtr (p + 1)
      forN (b - a) a (fun k c => do
        let i ← rd groupSet k
        addRow Lp t i c) c) _ _ _ (by omega)]
    exact adds_groups hgp hgs hrow _ ht
      (fun p hp => hlt p (mem_take_of_block h2 h1 hp))
  obtain ⟨r, hr, hlen, h, -⟩ := wp_iff.1 (overLevels_wp hlp hT.pos hadd hT.tid hT.order hlc)
  exact ⟨r, hr, hlen, h⟩

/-- **C90** The loads of the threads add up to the entries of all rows of the level. -/
theorem C90_loads_sum {Lp : List Nat} {rows : Nat → List Nat} {owner : Nat → Nat} {m : Nat} (hown : ∀ j, owner j < m)
    (a b : Nat) : ((List.range m).map (load Lp rows owner a b)).sum
      = work Lp ((List.range' a (b - a)).flatMap rows) := by
  unfold load
  induction List.range' a (b - a) with
  | nil =>
    have h0 : work Lp [] = 0 := rfl
    simp [h0]
  | cons j l ih =>
    rw [List.flatMap_cons, work_append, ← ih]
    have hsplit : ∀ t, work Lp (((j :: l).filter (fun j => owner j == t)).flatMap rows)
        = (if owner j = t then work Lp (rows j) else 0)
          + work Lp ((l.filter (fun j => owner j == t)).flatMap rows) := by
      intro t
      rw [List.filter_cons]
      by_cases h : owner j = t
      · rw [if_pos (by simpa using h), if_pos h, List.flatMap_cons, work_append]
      · rw [if_neg (by simpa using h), if_neg h, zero_add]
    simp only [hsplit]
    rw [List.sum_map_add]
    congr 1
    have hone : ∀ m k : Nat, k < m → ∀ v : Int, ((List.range m).map (fun t => if k = t then v else 0)).sum = v := by
      intro m
      induction m with
      | zero => intro k hk; omega
      | succ m ihm =>
        intro k hk v
        rw [List.range_succ, List.map_append, List.sum_append]
        by_cases h : k = m
        · subst h
          have : (List.range k).map (fun t => if k = t then v else 0) = List.replicate k 0 := by
            rw [List.eq_replicate_iff]
            refine ⟨by simp, ?_⟩
            intro x hx
            obtain ⟨t, ht, rfl⟩ := List.mem_map.1 hx
            rw [if_neg (by have := List.mem_range.1 ht; omega)]
          rw [this]
          simp
        · rw [ihm k (by omega) v]
          simp [h]
    exact hone m _ (hown j) _

/-! ### Without OpenMP -/

theorem forRange_ub {σ : Type} {f : Nat → σ → Res σ} (I : σ → Prop) {lo hi j : Nat} {s : σ} (h1 : lo ≤ j) (h2 : j < hi)
    (h0 : I s) (hstep : ∀ i s, lo ≤ i → i < j → I s → f i s = ub ∨ wp (f i s) I)
    (hj : ∀ s, I s → f j s = ub) : forRange lo hi f s = ub := by
  have key : ∀ (c lo : Nat) (s : σ), I s → lo ≤ j → j < lo + c →
      (∀ i s, lo ≤ i → i < j → I s → f i s = ub ∨ wp (f i s) I) → forN c lo f s = ub := by
    intro c
    induction c with
    | zero => intro lo s _ _ _; omega
    | succ c ih =>
      intro lo s hI hlo hjc hst
      rw [forN]
      by_cases he : lo = j
      · rw [he, hj s hI]; rfl
      · rcases hst lo s (Nat.le_refl _) (by omega) hI with h | h
        · rw [h]; rfl
        · obtain ⟨s', hs', hI'⟩ := wp_iff.1 h
          rw [hs', ok_bind]
          exact ih (lo + 1) s' hI' (by omega) (by omega) (fun i s h1 h2 => hst i s (by omega) h2)
  exact key _ _ _ h0 h1 (by omega) hstep

theorem forEach_range' {σ : Type} (f : Nat → σ → Res σ) : ∀ (c a : Nat) (s : σ),
    forEach (List.range' a c) f s = forN c a f s := by
  intro c
  induction c with
  | zero => intro a s; rfl
  | succ c ih =>
    intro a s
    rw [List.range'_succ, forEach, forN]
    congr 1
    funext t
    exact ih (a + 1) t

theorem overLevels_ub {iter : Nat → Nat → List Int → Res (List Int)} {levels m : Nat} {levelPtr : List Nat}
    (hp : PtrOk levelPtr levels m) (hiter : ∀ j, j < m → iter 1 j [0] = ok [0] ∨ iter 1 j [0] = ub)
    (hbad : ∃ j, j < m ∧ iter 1 j [0] = ub) {lcost : List Int} (hlc : levels ≤ lcost.length) :
    overLevels .noOpenMP iter levels levelPtr lcost = ub := by
  obtain ⟨j, hj, hjb⟩ := hbad
  obtain ⟨l, hl, hb⟩ := hp.exists_block hj
  have hlen := hp.len
  have hspread : spread 1 [0] = ok 0 := by
    show (match List.mergeSort ([] : List Int) (fun a b => decide (b ≤ a)) with
      | [] => ok 0
      | x :: _ => ok x) = ok 0
    rw [List.mergeSort_nil]
  have hub : forRange 0 levels (fun l (s : List Int × List Int) => do
      let a ← rd levelPtr l
      let b ← rd levelPtr (l + 1)
      let cost ← forEach (Threads.noOpenMP.order l a b) (fun li c => iter (Threads.noOpenMP.tid l li) li c) s.1
      let v ← spread Threads.noOpenMP.len cost
      let lc ← wr s.2 l v
      ok (List.replicate Threads.noOpenMP.len 0, lc)) (List.replicate Threads.noOpenMP.len 0, lcost) = ub := by
    refine forRange_ub (fun s => s.1 = [0] ∧ s.2.length = lcost.length) (Nat.zero_le _) hl ⟨rfl, rfl⟩ ?_ ?_
    · rintro i ⟨c, lc⟩ _ hi ⟨h1, h2⟩
      dsimp only at h1 h2
      subst h1
      rw [rd_getD 0 (by omega), ok_bind, rd_getD 0 (by omega), ok_bind]
      simp only [Threads.noOpenMP]
      rw [forEach_range']
      have hle := hp.dle (b := i + 1) (by omega)
      have hmono := hp.dmono (b := i) (by omega)
      have hall : forN (levelPtr.getD (i + 1) 0 - levelPtr.getD i 0) (levelPtr.getD i 0)
          (fun li c => iter 1 li c) [0] = ok [0] ∨
          forN (levelPtr.getD (i + 1) 0 - levelPtr.getD i 0) (levelPtr.getD i 0)
          (fun li c => iter 1 li c) [0] = ub := by
        have : ∀ (c a : Nat), a + c ≤ m → forN c a (fun li c => iter 1 li c) [0] = ok [0] ∨
            forN c a (fun li c => iter 1 li c) [0] = ub := by
          intro c
          induction c with
          | zero => intro a _; exact .inl rfl
          | succ c ih =>
            intro a ha
            rw [forN]
            rcases hiter a (by omega) with h | h
            · rw [h, ok_bind]; exact ih (a + 1) (by omega)
            · rw [h]; exact .inr rfl
        exact this _ _ (by omega)
      rcases hall with h | h
      · rw [h, ok_bind, hspread, ok_bind, wr_eq (by omega), ok_bind, wp_ok]
        exact .inr ⟨rfl, by simpa using h2⟩
      · rw [h]; exact .inl rfl
    · rintro ⟨c, lc⟩ ⟨h1, h2⟩
      dsimp only at h1 h2
      subst h1
      rw [rd_getD 0 (by omega), ok_bind, rd_getD 0 (by omega), ok_bind]
      simp only [Threads.noOpenMP]
      rw [forEach_range']
      have hle := hp.dle (b := l + 1) (by omega)
      have := forRange_ub (f := fun li c => iter 1 li c) (fun c => c = [0]) (s := [0]) hb.1 hb.2 rfl (by
        rintro i c h1 h2 rfl
        rcases hiter i (by omega) with h | h
        · rw [h]; exact .inr rfl
        · exact .inl h) (by rintro c rfl; exact hjb)
      unfold forRange at this
      rw [this]; rfl
  unfold overLevels
  rw [hub]; rfl

theorem one_block {Lp ptr set : List Nat} {m n k : Nat} (hp : PtrOk ptr m n) (hset : n ≤ set.length) (hk : k < m) :
    (do
      let a ← rd ptr k
      let b ← rd ptr (k + 1)
      forRange a b (fun k c => do
        let j ← rd set k
        addRow Lp 1 j c) [0]) = if ptr.getD k 0 < ptr.getD (k + 1) 0 then ub else ok [0] := by
  have hl := hp.len
  have h1 := hp.dle (b := k + 1) (by omega)
  rw [rd_getD 0 (by omega), ok_bind, rd_getD 0 (by omega), ok_bind]
  split
  · rename_i h
    refine forRange_ub (fun c => c = [0]) (Nat.le_refl _) h rfl (fun i s h1 h2 => by omega) ?_
    rintro s rfl
    rw [rd_getD 0 (by omega), ok_bind]
    rfl
  · rw [forRange_empty _ _ (by omega)]

/-- **C90** Without OpenMP, `sptrsv_csr_lbc_stat` writes `cost[1]` behind the one element of `cost`
for every schedule that lists a row. -/
theorem C90_lbc_no_openmp_ub {Lp : List Nat} {s : Sched} {m parts : Nat}
    (hlp : PtrOk s.levelPtr s.levels parts) (hpp : PtrOk s.partPtr parts m) (hns : m ≤ s.nodes.length)
    (hm : 0 < m) {lcost : List Int} (hlc : s.levels ≤ lcost.length) :
    lbcStat .noOpenMP Lp s.levels s.levelPtr s.partPtr s.nodes lcost = ub := by
  refine overLevels_ub hlp ?_ ?_ hlc
  · intro j hj
    unfold iterLbc
    rw [one_block hpp hns hj]
    split
    · exact .inr rfl
    · exact .inl rfl
  · obtain ⟨q, hq, hb⟩ := hpp.exists_block hm
    refine ⟨q, hq, ?_⟩
    unfold iterLbc
    rw [one_block hpp hns hq, if_pos (by omega)]

/-- **C90** The same for `fs_csr_levelset_stat`, for every level set that lists a group, if all groups have rows. -/
theorem C90_levelset_no_openmp_ub {Lp groupPtr groupSet levelPtr levelSet : List Nat}
    {levels m ngroup n : Nat} (hlp : PtrOk levelPtr levels m) (hls : m ≤ levelSet.length)
    (hlt : ∀ x ∈ levelSet, x < ngroup) (hgp : PtrOk groupPtr ngroup n) (hgs : n ≤ groupSet.length)
    (hne : ∀ q, q < ngroup → groupPtr.getD q 0 < groupPtr.getD (q + 1) 0) (hm : 0 < m)
    {lcost : List Int} (hlc : levels ≤ lcost.length) :
    levelSetStat .noOpenMP Lp groupPtr groupSet levels levelPtr levelSet lcost = ub := by
  have h : ∀ j, j < m → iterLevelSet Lp groupPtr groupSet levelSet 1 j [0] = ub := by
    intro j hj
    have hx := hlt _ (List.mem_of_getElem? (getElem?_getD 0 (show j < levelSet.length by omega)))
    unfold iterLevelSet
    rw [rd_getD 0 (show j < levelSet.length by omega), ok_bind, one_block hgp hgs hx, if_pos (hne _ hx)]
  exact overLevels_ub hlp (fun j hj => .inr (h j hj)) ⟨0, hm, h 0 hm⟩ hlc

/-- **C90** The same for `sptrsv_csr_group_lbc_stat`. -/
theorem C90_group_no_openmp_ub {Lp groupPtr groupSet : List Nat} {s : Sched} {m parts ngroup n : Nat}
    (hlp : PtrOk s.levelPtr s.levels parts) (hpp : PtrOk s.partPtr parts m) (hns : m ≤ s.nodes.length)
    (hlt : ∀ x ∈ s.nodes, x < ngroup) (hgp : PtrOk groupPtr ngroup n) (hgs : n ≤ groupSet.length)
    (hne : ∀ q, q < ngroup → groupPtr.getD q 0 < groupPtr.getD (q + 1) 0) (hm : 0 < m)
    {lcost : List Int} (hlc : s.levels ≤ lcost.length) :
    groupLbcStat .noOpenMP Lp s.levels s.levelPtr s.partPtr s.nodes groupPtr groupSet lcost = ub := by
  have h : ∀ q, q < parts → iterGroupLbc Lp s.partPtr s.nodes groupPtr groupSet 1 q [0]
      = if s.partPtr.getD q 0 < s.partPtr.getD (q + 1) 0 then ub else ok [0] := by
    intro q hq
    have hl := hpp.len
    have h1 := hpp.dle (b := q + 1) (by omega)
    unfold iterGroupLbc
    rw [rd_getD 0 (by omega), ok_bind, rd_getD 0 (by omega), ok_bind]
    split
    · rename_i hlt'
      refine forRange_ub (fun c => c = [0]) (Nat.le_refl _) hlt' rfl (fun i s h1 h2 => by omega) ?_
      rintro c rfl
      have hx := hlt _ (List.mem_of_getElem? (getElem?_getD 0 (show s.partPtr.getD q 0 < s.nodes.length by omega)))
      rw [rd_getD 0 (by omega), ok_bind]
      exact (one_block hgp hgs hx).trans (if_pos (hne _ hx))
    · rw [forRange_empty _ _ (by omega)]
  refine overLevels_ub hlp ?_ ?_ hlc
  · intro j hj
    rw [h j hj]
    split
    · exact .inr rfl
    · exact .inl rfl
  · obtain ⟨q, hq, hb⟩ := hpp.exists_block hm
    exact ⟨q, hq, by rw [h q hq, if_pos (by omega)]⟩

/-! ### Concrete cases -/

/-- A lower triangular matrix of four rows (diagonal last). -/
def exRows : Csc := ⟨4, [0, 1, 3, 5, 8], [0, 0, 1, 0, 2, 1, 2, 3]⟩

example : exRows.WF := by
  refine ⟨rfl, rfl, ?_, by decide, ?_⟩ <;> decide

example : fsCsr 4 exRows.p exRows.i = ok (12, 20, 2) := by decide +kernel

example : (∀ i, i < exRows.n → (exRows.col i).getLast? = some i) ∧ ∀ i, i < exRows.n → (exRows.col i).Nodup := by
  decide

/-- Its transpose (diagonal first) for the incomplete factorization. -/
example : ic0Csc 4 [0, 3, 5, 7, 8] [0, 1, 2, 1, 3, 2, 3, 3] = ok (20, 28, 0) := by decide +kernel

/-- Three threads, iterations dealt out in turn and run backwards. -/
def exThreads : Threads := ⟨3, fun _ j => j % 3, fun _ a b => (List.range' a (b - a)).reverse⟩

example : exThreads.Ok := by
  refine ⟨by decide, ?_, ?_⟩
  · intro l j; exact Nat.mod_lt _ (by decide)
  · intro l a b; exact List.reverse_perm _

/-- Two levels: the parts `{0}`, `{1}` and then `{2, 3}`; thread 2 idles in the first level, threads 0 and 1 in
the second. -/
def exSched : Sched := ⟨2, [0, 2, 3], [0, 1, 2, 4], [0, 1, 2, 3]⟩

theorem exSched_ok : PtrOk exSched.levelPtr exSched.levels 3 ∧ PtrOk exSched.partPtr 3 4 ∧
    4 ≤ exSched.nodes.length ∧ ∀ x ∈ exSched.nodes, x + 1 < exRows.p.length := by
  refine ⟨PtrOk.mk' (by decide) (by decide) (by decide) (by decide),
    PtrOk.mk' (by decide) (by decide) (by decide) (by decide), by decide, by decide⟩

example : (List.range 3).map (load exRows.p (block exSched.partPtr exSched.nodes) (exThreads.tid 0) 0 2) = [1, 2, 0]
    ∧ (List.range 3).map (load exRows.p (block exSched.partPtr exSched.nodes) (exThreads.tid 1) 2 3) = [0, 0, 5] := by
  decide +kernel

example : Spread 3 (load exRows.p (block exSched.partPtr exSched.nodes) (exThreads.tid 0) 0 2) 2 := by
  unfold Spread
  refine ⟨⟨1, 2, by decide +kernel⟩, fun s t hs ht => ?_⟩
  have : ∀ s < 3, ∀ t < 3, load exRows.p (block exSched.partPtr exSched.nodes) (exThreads.tid 0) 0 2 s
      - load exRows.p (block exSched.partPtr exSched.nodes) (exThreads.tid 0) 0 2 t ≤ 2 := by decide +kernel
  exact this s hs t ht

example : lbcStat .noOpenMP exRows.p 2 [0, 2, 3] [0, 1, 2, 4] [0, 1, 2, 3] [7, 7] = ub := by decide +kernel

end Verif.Stat
