import Verif.Proof.P2PRun
import Verif.Proof.ExecGroup
import Verif.Proof.GroupDag

/-! Point-to-point solvers: from the arrays of the task graph to the threads. -/

namespace Verif.P2P
open Res Exec Relation

variable {V : Type} {A : Arith V} {m : Mat V}

/-! ### Clearing the flags -/

theorem clear_run : ∀ (sch : List Nat) (ths : List (Mach.Thr Nat Unit)) (flags : List Nat),
    (∀ th ∈ ths, ∀ k ∈ th.code, k < flags.length) →
    ∃ ths' flags', Mach.runSched clearStep sch ths flags = ok (ths', flags') ∧
      flags'.length = flags.length ∧ (∀ th ∈ ths', ∀ k ∈ th.code, k < flags'.length) ∧
      ∀ k, (flags.getD k 0 = 0 ∨ ∃ th ∈ ths, k ∈ th.code) →
        (flags'.getD k 0 = 0 ∨ ∃ th ∈ ths', k ∈ th.code) := by
  intro sch
  induction sch with
  | nil => intro ths flags h; exact ⟨ths, flags, rfl, rfl, h, fun _ h => h⟩
  | cons t sch ih =>
    intro ths flags h
    unfold Mach.runSched
    rcases hth : ths[t]? with _ | ⟨_ | ⟨k, rest⟩, r⟩
    · exact ih ths flags h
    · exact ih ths flags h
    · dsimp only
      have hmem := List.mem_of_getElem? hth
      have hk : k < flags.length := h _ hmem k (by simp)
      have htl : t < ths.length := by
        by_contra hc
        rw [List.getElem?_eq_none (by omega)] at hth; cases hth
      rw [clearStep, wr_eq hk, ok_bind, ok_bind]
      dsimp only
      obtain ⟨ths', flags', g1, g2, g3, g4⟩ := ih (ths.set t ⟨rest, r⟩) (flags.set k 0) (by
        intro th hth' j hj
        rw [List.length_set]
        rcases List.mem_or_eq_of_mem_set hth' with hm | rfl
        · exact h th hm j hj
        · exact h _ hmem j (by simp [show j ∈ rest from hj]))
      refine ⟨ths', flags', g1, by rw [g2, List.length_set], g3, ?_⟩
      intro j hj
      apply g4
      rw [getD_set]
      by_cases hjk : j = k
      · subst hjk
        left
        simp [hk]
      · rw [if_neg (fun hh => hjk (by first | exact hh.1 | exact hh.1.symm))]
        rcases hj with hj | ⟨th, hth', hj⟩
        · exact .inl hj
        · right
          obtain ⟨s, hs, rfl⟩ := List.mem_iff_getElem.1 hth'
          by_cases hst : t = s
          · subst hst
            rw [List.getElem?_eq_getElem hs, Option.some.injEq] at hth
            rw [hth] at hj
            refine ⟨⟨rest, r⟩, List.mem_iff_getElem.2 ⟨t, by simpa using hs, by simp⟩, ?_⟩
            rcases List.mem_cons.1 hj with hj | hj
            · exact absurd hj hjk
            · exact hj
          · refine ⟨ths[s], List.mem_iff_getElem.2 ⟨s, by simpa using hs, ?_⟩, hj⟩
            rw [List.getElem_set_ne hst]

theorem clear_append (l₁ l₂ : List Nat) (ths : List (Mach.Thr Nat Unit)) (flags : List Nat) :
    Mach.runSched clearStep (l₁ ++ l₂) ths flags =
      (Mach.runSched clearStep l₁ ths flags >>= fun r => Mach.runSched clearStep l₂ r.1 r.2) := by
  induction l₁ generalizing ths flags with
  | nil => rfl
  | cons t l ih =>
    simp only [List.cons_append, Mach.runSched]
    rcases ths[t]? with _ | ⟨_ | ⟨k, rest⟩, r⟩
    · exact ih ths flags
    · exact ih ths flags
    · dsimp only
      cases clearStep k r flags with
      | ok r => simp only [ok_bind]; exact ih _ _
      | _ => rfl

theorem clear_complete : ∀ (N : Nat) (ths : List (Mach.Thr Nat Unit)) (flags : List Nat),
    (∀ th ∈ ths, ∀ k ∈ th.code, k < flags.length) → (ths.map fun th => th.code.length).sum = N →
    ∃ sch ths' flags', Mach.runSched clearStep sch ths flags = ok (ths', flags') ∧
      ths'.all (fun th => th.code.isEmpty) = true := by
  intro N
  induction N with
  | zero =>
    intro ths flags _ h0
    refine ⟨[], ths, flags, rfl, ?_⟩
    rw [List.all_eq_true]
    intro th hth
    have := List.sum_eq_zero_iff.1 h0 th.code.length (List.mem_map_of_mem hth)
    rw [List.isEmpty_iff]
    exact List.length_eq_zero_iff.1 this
  | succ N ih =>
    intro ths flags h hN
    obtain ⟨t, ht, hne⟩ : ∃ t, ∃ h : t < ths.length, ths[t].code ≠ [] := by
      by_contra hc
      push Not at hc
      have : (ths.map (fun th => th.code.length)).sum = 0 := by
        rw [List.sum_eq_zero_iff]
        intro x hx
        obtain ⟨th, hth, rfl⟩ := List.mem_map.1 hx
        obtain ⟨t, ht, rfl⟩ := List.mem_iff_getElem.1 hth
        rw [hc t ht]; rfl
      omega
    obtain ⟨k, rest, hcode⟩ := List.exists_cons_of_ne_nil hne
    have hk : k < flags.length := h _ (List.getElem_mem ht) k (by rw [hcode]; simp)
    obtain ⟨r, hr⟩ : ∃ r, ths[t].reg = r := ⟨_, rfl⟩
    have hth : ths[t]? = some ⟨k :: rest, r⟩ := by
      rw [List.getElem?_eq_getElem ht]
      congr 1
      rw [← hcode, ← hr]
    have hlt : t < (ths.map (fun th => th.code.length)).length := by simpa using ht
    have hsum : ((ths.set t ⟨rest, r⟩).map fun th => th.code.length).sum = N := by
      rw [List.map_set, List.sum_set]
      rw [← List.sum_take_add_sum_drop _ t, List.drop_eq_getElem_cons hlt] at hN
      simp [ht, hcode] at hN ⊢
      omega
    obtain ⟨sch, ths', flags', g1, g2⟩ := ih (ths.set t ⟨rest, r⟩) (flags.set k 0) (by
      intro th hth' j hj
      rw [List.length_set]
      rcases List.mem_or_eq_of_mem_set hth' with hm | rfl
      · exact h th hm j hj
      · exact h _ (List.getElem_mem ht) j (by rw [hcode]; simp [show j ∈ rest from hj])) hsum
    refine ⟨t :: sch, ths', flags', ?_, g2⟩
    unfold Mach.runSched
    rw [hth]
    dsimp only
    rw [clearStep, wr_eq hk, ok_bind, ok_bind]
    exact g1

/-- The flags of thread `tid`. -/
def clearList (ntasks T tid : Nat) : List Nat :=
  List.range' (min ((ntasks + T - 1) / T * tid) ntasks)
    (min (min ((ntasks + T - 1) / T * tid) ntasks + (ntasks + T - 1) / T) ntasks
      - min ((ntasks + T - 1) / T * tid) ntasks)

theorem clearCodes_eq (ntasks T : Nat) (tids : List Nat) :
    clearCodes ntasks T tids = ok (tids.map (clearList ntasks T)) := by
  unfold clearCodes
  rw [forEach_push (fun tid => [clearList ntasks T tid]) tids [] (by
    intro a _ acc; rfl)]
  simp [List.map_eq_flatMap]

theorem mem_clearList {ntasks T k : Nat} (hk : k < ntasks) (hT : 0 < T) :
    ∃ tid, tid < T ∧ k ∈ clearList ntasks T tid := by
  obtain ⟨q, hq⟩ : ∃ q, q = (ntasks + T - 1) / T := ⟨_, rfl⟩
  have hqT : ntasks ≤ q * T := by
    have h1 := Nat.div_add_mod (ntasks + T - 1) T
    have h2 := Nat.mod_lt (ntasks + T - 1) hT
    rw [← hq, Nat.mul_comm] at h1
    omega
  have hqpos : 0 < q := by
    rcases Nat.eq_zero_or_pos q with h | h
    · subst h; simp at hqT; omega
    · exact h
  refine ⟨k / q, ?_, ?_⟩
  · rw [Nat.div_lt_iff_lt_mul hqpos, Nat.mul_comm]; omega
  · unfold clearList
    rw [← hq, List.mem_range'_1]
    have h1 := Nat.div_add_mod k q
    have h2 := Nat.mod_lt k hqpos
    omega

theorem clearList_lt {ntasks T tid k : Nat} (h : k ∈ clearList ntasks T tid) : k < ntasks := by
  unfold clearList at h
  rw [List.mem_range'_1] at h
  omega

/-! ### The plan of a task graph -/

/-- The plan of a task graph over nodes, node `v` being the rows `rowsOf v`. -/
def planOf (S : TaskGraph) (T : Nat) (rowsOf : Nat → List Nat) : Plan where
  T := T
  ntasks := S.ntasks
  tasks t := List.range' (S.threadBoundaries.getD t 0)
    (S.threadBoundaries.getD (t + 1) 0 - S.threadBoundaries.getD t 0)
  parents t := (S.parents.getD t []).take (S.nparents.getD t 0)
  rows t := (slice S.perm (S.taskBoundaries.getD t 0) (S.taskBoundaries.getD (t + 1) 0)).flatMap rowsOf

/-- The rows of the nodes are a partition of the rows, and a row uses rows that come before it in its
node or belong to nodes its node depends on. -/
structure NodesOk (n N : Nat) (rowDep dep : Nat → Nat → Prop) (rowsOf : Nat → List Nat) : Prop where
  perm : ((List.range N).flatMap rowsOf).Perm (List.range n)
  dep : ∀ v, v < N → ∀ pre j post, rowsOf v = pre ++ j :: post → ∀ u, rowDep u j →
    u ∈ pre ∨ ∃ w, w < N ∧ u ∈ rowsOf w ∧ dep w v

section
variable {S : TaskGraph} {T n N : Nat} {rowDep dep : Nat → Nat → Prop} {rowsOf : Nat → List Nat}

theorem mem_tasks {t a : Nat} (h : S.Ok T N dep) (ht : t < T) :
    a ∈ (planOf S T rowsOf).tasks t ↔ InBlock S.threadBoundaries t a := by
  rw [h.thr.inBlock_iff ht]
  show a ∈ List.range' _ _ ↔ _
  rw [List.mem_range'_1]
  have := h.thr.dmono ht
  omega

theorem mem_parents {b a : Nat} (h : S.Ok T N dep) (hb : b < S.ntasks) :
    a ∈ (planOf S T rowsOf).parents b ↔ ∃ k np l, S.nparents[b]? = some np ∧
      S.parents[b]? = some l ∧ k < np ∧ l[k]? = some a := by
  obtain ⟨np, l, h1, h2, _⟩ := h.par b hb
  show a ∈ (S.parents.getD b []).take (S.nparents.getD b 0) ↔ _
  rw [List.getD_eq_getElem?_getD, List.getD_eq_getElem?_getD, h1, h2, List.mem_iff_getElem?]
  simp only [Option.getD_some]
  constructor
  · rintro ⟨k, hk⟩
    rw [List.getElem?_take] at hk
    split at hk
    · exact ⟨k, np, l, rfl, rfl, by assumption, hk⟩
    · cases hk
  · rintro ⟨k, np', l', e1, e2, e3, e4⟩
    cases e1; cases e2
    exact ⟨k, by rw [List.getElem?_take, if_pos e3]; exact e4⟩

theorem bef_of_before (h : S.Ok T N dep) {a b : Nat} (hab : S.Before T a b) :
    (planOf S T rowsOf).Bef a b := by
  cases hab with
  | @thread t _ _ ht h1 h2 h3 =>
    rw [h.thr.inBlock_iff ht] at h1 h2
    obtain ⟨lo, hlo⟩ : ∃ lo, lo = S.threadBoundaries.getD t 0 := ⟨_, rfl⟩
    obtain ⟨hi, hhi⟩ : ∃ hi, hi = S.threadBoundaries.getD (t + 1) 0 := ⟨_, rfl⟩
    rw [← hlo, ← hhi] at h1 h2
    refine .thread (t := t) (pre := List.range' lo (b - lo)) (post := List.range' (b + 1) (hi - (b + 1)))
      ht ?_ ?_
    · show List.range' _ _ = _
      rw [← hlo, ← hhi]
      have e1 : hi - lo = (b - lo) + ((hi - (b + 1)) + 1) := by omega
      rw [e1, ← List.range'_append_1, List.range'_succ]
      congr 2
      · omega
      · congr 1; omega
    · rw [List.mem_range'_1]; omega
  | @parent _ _ k np l hb h1 h2 h3 h4 =>
    exact .parent ((mem_parents h hb).2 ⟨k, np, l, h1, h2, h3, h4⟩)

theorem before_of_bef (h : S.Ok T N dep) {a b : Nat} (hb : b < S.ntasks)
    (hab : (planOf S T rowsOf).Bef a b) : S.Before T a b ∧ a < S.ntasks := by
  cases hab with
  | @thread t _ _ pre post ht h1 h2 =>
    have ht' : t < T := ht
    have ha : a ∈ (planOf S T rowsOf).tasks t := by rw [h1]; simp [h2]
    have hbm : b ∈ (planOf S T rowsOf).tasks t := by rw [h1]; simp
    rw [mem_tasks h ht'] at ha hbm
    refine ⟨.thread ht' ha hbm ?_, ?_⟩
    · have hp : ((planOf S T rowsOf).tasks t).Pairwise (· < ·) := List.pairwise_lt_range'
      rw [h1, List.pairwise_append] at hp
      exact hp.2.2 a h2 b (by simp)
    · have := (h.thr.inBlock_iff ht').1 ha
      have := h.thr.dle (b := t + 1) ht'
      omega
  | parent hp =>
    rw [mem_parents h hb] at hp
    obtain ⟨k, np, l, h1, h2, h3, h4⟩ := hp
    refine ⟨.parent hb h1 h2 h3 h4, ?_⟩
    obtain ⟨np', l', e1, e2, e3⟩ := h.par b hb
    rw [h1] at e1; rw [h2] at e2
    cases e1; cases e2
    obtain ⟨p, e4, e5⟩ := e3 k h3
    rw [h4] at e4
    cases e4
    exact e5

theorem transGen_mono {r p : Nat → Nat → Prop} (h : ∀ a b, r a b → p a b) {a b : Nat}
    (hab : TransGen r a b) : TransGen p a b := by
  induction hab with
  | single h1 => exact .single (h _ _ h1)
  | tail _ h1 ih => exact .tail ih (h _ _ h1)

theorem planOf_good (h : S.Ok T N dep) (hN : NodesOk n N rowDep dep rowsOf) :
    (planOf S T rowsOf).Good n rowDep where
  uniq t t' a ht ht' h1 h2 := by
    have ht1 : t < T := ht
    have ht2 : t' < T := ht'
    rw [mem_tasks h ht1, h.thr.inBlock_iff ht1] at h1
    rw [mem_tasks h ht2, h.thr.inBlock_iff ht2] at h2
    exact h.thr.block_unique ht1 ht2 h1.1 h1.2 h2.1 h2.2
  nodup t _ := List.nodup_range'
  cover a := by
    constructor
    · intro ha
      obtain ⟨t, ht, h1⟩ := h.thr.exists_block (k := a) ha
      exact ⟨t, ht, (mem_tasks h ht).2 ((h.thr.inBlock_iff ht).2 h1)⟩
    · rintro ⟨t, ht, ha⟩
      have ht1 : t < T := ht
      rw [mem_tasks h ht1, h.thr.inBlock_iff ht1] at ha
      have := h.thr.dle (b := t + 1) ht1
      show a < S.ntasks
      omega
  rows := by
    show ((List.range S.ntasks).flatMap fun t => (slice S.perm _ _).flatMap rowsOf).Perm _
    rw [← List.flatMap_assoc, flatMap_slices S.perm S.taskBoundaries S.ntasks h.tsk.d0
      (fun b hb => h.tsk.dmono hb), h.tsk.dlast]
    exact (h.perm.flatMap_right _).trans hN.perm
  par t ht p hp := by
    have ht' : t < S.ntasks := ht
    exact (before_of_bef h ht' (.parent hp)).2
  dep := by
    intro t ht pre v post hr u hu
    have ht' : t < S.ntasks := ht
    have hr' : (slice S.perm (S.taskBoundaries.getD t 0) (S.taskBoundaries.getD (t + 1) 0)).flatMap
      rowsOf = pre ++ v :: post := hr
    obtain ⟨l1, g, l2, p, q, e1, e2, e3, e4⟩ := flatMap_split _ _ _ _ _ hr'
    have hpos : S.perm[S.taskBoundaries.getD t 0 + l1.length]? = some g ∧
        S.taskBoundaries.getD t 0 + l1.length < S.taskBoundaries.getD (t + 1) 0 := by
      have : (slice S.perm (S.taskBoundaries.getD t 0)
          (S.taskBoundaries.getD (t + 1) 0))[l1.length]? = some g := by
        rw [e1]; simp
      rw [getElem?_slice] at this
      split at this
      · exact ⟨this, by assumption⟩
      · cases this
    have hhi := h.tsk.dle (b := t + 1) ht'
    have hgN : g < N := by
      have : g ∈ S.perm.take N := by
        rw [List.mem_iff_getElem?]
        exact ⟨S.taskBoundaries.getD t 0 + l1.length, by
          rw [List.getElem?_take, if_pos (by omega)]; exact hpos.1⟩
      exact List.mem_range.1 (h.perm.mem_iff.1 this)
    rcases hN.dep g hgN p v q e2 u hu with hp | ⟨w, hw, huw, hd⟩
    · exact .inl (by rw [e3]; simp [hp])
    · have hwm : w ∈ S.perm.take N := h.perm.mem_iff.2 (List.mem_range.2 hw)
      obtain ⟨c, hc⟩ := List.mem_iff_getElem?.1 hwm
      rw [List.getElem?_take] at hc
      split at hc
      case isFalse => cases hc
      rename_i hcN
      obtain ⟨s, hs, hs1, hs2⟩ := h.tsk.exists_block hcN
      rcases h.dep w g hd s t c _ hs ht' ((h.tsk.inBlock_iff hs).2 ⟨hs1, hs2⟩) hc
        ((h.tsk.inBlock_iff ht').2 ⟨by omega, hpos.2⟩) hpos.1 with ⟨rfl, hlt⟩ | hT
      · left
        rw [e3]
        have : w ∈ l1 := by
          have hx : (slice S.perm (S.taskBoundaries.getD s 0)
              (S.taskBoundaries.getD (s + 1) 0))[c - S.taskBoundaries.getD s 0]? = some w := by
            rw [getElem?_slice, if_pos (by omega), show S.taskBoundaries.getD s 0 +
              (c - S.taskBoundaries.getD s 0) = c by omega]
            exact hc
          rw [e1, List.getElem?_append_left (by omega)] at hx
          exact List.mem_of_getElem? hx
        exact List.mem_append_left _ (List.mem_flatMap.2 ⟨w, this, huw⟩)
      · right
        refine ⟨s, hs, ?_, transGen_mono (fun _ _ => bef_of_before h) hT⟩
        refine List.mem_flatMap.2 ⟨w, mem_slice.2 ⟨c, hs1, hs2, hc⟩, huw⟩
  acyclic := by
    intro t ht hc
    have key : ∀ a b, b < S.ntasks → TransGen (planOf S T rowsOf).Bef a b →
        TransGen (S.Before T) a b := by
      intro a b hb hab
      induction hab using TransGen.head_induction_on with
      | single h1 => exact .single (before_of_bef h hb h1).1
      | @head a c h1 h2 ih =>
        refine .head (before_of_bef h ?_ h1).1 ih
        clear ih h1
        induction h2 using TransGen.head_induction_on with
        | single h1 => exact (before_of_bef h hb h1).2
        | head h1 _ ih => exact (before_of_bef h ih h1).2
    exact h.acyclic t (key t t ht hc)

theorem threadCode_eq (h : S.Ok T N dep) (hR : RowsOk m) (hrows : ∀ t, t < S.ntasks →
      ∀ i ∈ (planOf S T rowsOf).rows t, i < m.n) {body : Nat → Res (List (Instr V))}
    (hbody : ∀ c, c < N → ∃ v, S.perm[c]? = some v ∧ body c = ok (code hR (rowsOf v)))
    {t : Nat} (ht : t < T) :
    threadCode S body t = ok (((planOf S T rowsOf).atoms t).flatMap (ins hR)) := by
  have hpl := h.thr.len
  have htl := h.tsk.len
  unfold threadCode
  rw [rd_getD 0 (by omega), ok_bind, rd_getD 0 (by omega), ok_bind,
    forRange_append (fun a => ((planOf S T rowsOf).taskAtoms a).flatMap (ins hR)) (h.thr.dmono ht)]
  · rw [List.nil_append, Plan.atoms, List.flatMap_assoc]
    rfl
  · intro a acc ha1 ha2
    have ha : a < S.ntasks := by have := h.thr.dle (b := t + 1) ht; omega
    obtain ⟨np, l, e1, e2, e3⟩ := h.par a ha
    have hw : waitCode S a = ok (((planOf S T rowsOf).parents a).map (PIns.wait (V := V))) := by
      unfold waitCode
      rw [rd, e1]
      dsimp only [ok_bind]
      rw [forRange_append (fun k => [PIns.wait (l.getD k 0)]) (Nat.zero_le _)]
      · congr 1
        show _ = List.map _ ((S.parents.getD a []).take (S.nparents.getD a 0))
        rw [List.getD_eq_getElem?_getD, List.getD_eq_getElem?_getD, e1, e2]
        simp only [Option.getD_some, List.nil_append, Nat.sub_zero]
        rw [← List.map_eq_flatMap]
        apply List.ext_getElem?
        intro k
        by_cases hk : k < np
        · obtain ⟨p, hp, _⟩ := e3 k hk
          rw [List.getElem?_map, List.getElem?_map, List.getElem?_range' hk, List.getElem?_take,
            if_pos hk, hp]
          simp [hp]
        · rw [List.getElem?_eq_none (by simp; omega), List.getElem?_eq_none (by simp; omega)]
      · intro k acc _ hk
        obtain ⟨p, hp, _⟩ := e3 k hk
        rw [rd, e2]
        dsimp only
        rw [ok_bind, rd, hp]
        dsimp only
        rw [ok_bind]
        simp [hp]
    unfold taskCode
    rw [hw, ok_bind, rd_getD 0 (by omega), ok_bind, rd_getD 0 (by omega), ok_bind,
      seqCode_eq (c := fun c => code hR (rowsOf (S.perm.getD c 0))) (h.tsk.dmono ha), ok_bind, ok_bind]
    · congr 2
      unfold Plan.taskAtoms
      rw [List.flatMap_append, List.flatMap_append]
      congr 1
      congr 1
      · rw [List.flatMap_map, List.map_eq_flatMap]
        rfl
      · rw [List.flatMap_map]
        show _ = ((slice S.perm _ _).flatMap rowsOf).flatMap (fun i => (rowI hR i).map PIns.acc)
        have hle := h.tsk.dle (b := a + 1) ha
        have hpl : N ≤ S.perm.length := by
          have := h.perm.length_eq
          rw [List.length_take, List.length_range] at this
          omega
        rw [List.flatMap_assoc, ← flatMap_slice_eq (l := S.perm) (by omega)
          (fun v => (rowsOf v).flatMap fun i => (rowI hR i).map PIns.acc)]
        simp only [code, List.map_flatMap]
    · intro c hc1 hc2
      obtain ⟨v, hv, hb⟩ := hbody c (by have := h.tsk.dle (b := a + 1) ha; omega)
      rw [hb, List.getD_eq_getElem?_getD, hv]
      rfl

end

end Verif.P2P
