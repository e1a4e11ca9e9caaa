import Verif.Proof.Ic0Demo

/-!
# C112: the parallel incomplete Cholesky factorisations of the demo, from the matrix to the factor

`SpicoCSC_Grouping`, `SpicoCSC_Grouping_H2`, `Spic0CSCParallelLBC` (example/old/spic0_demo_utils.h).
Vocabulary: `Mat.IsIC0` (Verif/Spec/Ic0.lean), `Csc.DiagFirst`, `Csc.Sorted`, `RunPartition`
(Verif/Props/RunGroup.lean), `Grouping.Dep`, `Sched.Valid`, `AlwaysGives`.
-/

namespace Verif.Ic0Demo
open Res Csc RunGroup Hdagg Exec Lbc

variable {V : Type} {a : Mat V}

/-- **C112, `SpicoCSC_Grouping`.**  For every lower triangular matrix with sorted columns, the set-up
ends normally whatever the interleaving of the threads that build the graph of groups (`order`).  The
groups are runs of consecutive columns, the level set lists every group once, each after the groups
it depends on; and for every interleaving of the threads of the factorisation, if subtractions commute,
the result is the one of the serial factorisation, the incomplete Cholesky factor. -/
theorem C112_grouping {A : IcArith V} (hA : A.Comm) (hwf : a.WF) (hd : a.pat.DiagFirst) (hs : a.pat.Sorted)
    {order : List (List Nat) → List (Nat × Nat)} (ho : Order order) :
    ∃ s xs, buildSet order a.n a.p a.i = ok s ∧ RunPartition s.groups a.n ∧
      PtrOk s.levelPtr s.levels s.groups.num ∧
      (s.levelSet.take s.groups.num).Perm (List.range s.groups.num) ∧
      (∀ b c lb lc, s.groups.grouping.Dep a.pat b c → lb < s.levels → lc < s.levels →
        InLevel s.levelPtr s.levelSet lb b → InLevel s.levelPtr s.levelSet lc c → lb < lc) ∧
      Ic0.ic0Csc A a.n a.p a.i a.x = ok xs ∧ a.IsIC0 A xs ∧
      AlwaysGives (fun sch => fusedCode A a.p a.i s sch a.x) xs := by
  have hT := Ic0.tri hwf hd hs
  obtain ⟨o, gv, gedg, gg, G⟩ := exists_groupGraphOk hT ho
  have hgn := G.gn
  have hle := G.le
  have hpn : a.pat.n = a.n := rfl
  rw [hpn] at hle
  obtain ⟨L, lp, ls, k1, k2, k3, k4, k5⟩ := C45_queue_levels_acyclic G.wf G.oneDiag G.diagFirst G.acyclic
    (ptr := List.replicate (a.n + 1) 0) (set := List.replicate a.n 0)
    (by rw [hgn, List.length_replicate]; omega) (by rw [getD_replicate _ _ _ _ (by omega)])
    (by rw [hgn, List.length_replicate]; exact hle)
  rw [hgn] at k2 k4
  have k1' : QLevel.build o.num gv gedg (List.replicate (a.n + 1) 0) (List.replicate a.n 0) = ok (L, lp, ls) := by
    have := QLevel.build_ext o.num gv gedg (List.replicate (a.n + 1) 0) (List.replicate a.n 0) (o.num + 1)
    refine this.eq_ok ?_
    rw [← k1, G.graph]
  have hbuild : buildSet order a.n a.p a.i = ok ⟨o, L, lp, ls⟩ := by
    unfold buildSet
    have e1 : groupGraph order a.n a.p a.i = ok (o, gv, gedg) := G.eq
    rw [e1, ok_bind]
    dsimp only
    rw [k1', ok_bind]
  have hdrop : ∀ l v, InLevel lp (ls.take o.num) l v → InLevel lp ls l v := by
    rintro l v ⟨k, hk1, hk2⟩
    rw [List.getElem?_take] at hk2
    split at hk2
    · exact ⟨k, hk1, hk2⟩
    · cases hk2
  have hlen : (ls.take o.num).length = o.num := by simpa using k4.length_eq
  have hval := levels_expand_valid (g := a.pat) hT.wf (G := o.grouping) G.done.partition (L := L) (lp := lp)
    (ls := ls.take o.num) hlen k2 k4 (R := (· < ·))
    (fun b c l l' hbc g1 g2 g3 g4 => k5 b c l l' ((G.dep b c).2 hbc) g1 g2 (hdrop _ _ g3) (hdrop _ _ g4))
    (fun u v huv hvu => by have := hT.dep_lt huv; omega) (fun j hj => G.done.runPartition.sorted j hj)
  have hsetl : o.set.length = a.n := G.done.lenSet.1
  obtain ⟨xs, x1, x2, x3⟩ := Ic0.C110_group_levelset hA hwf hd hs (levels := L) (levelPtr := lp)
    (levelSet := ls.take o.num) (groupPtr := o.ptr) (groupSet := o.set) (ngroups := o.num)
    (by rw [hsetl]; exact G.done.ptrOk)
    (by
      intro i hi
      rw [← List.take_of_length_le hsetl.le] at hi
      have : i ∈ o.set.take a.pat.n := hi
      rw [G.done.set] at this
      exact List.mem_range.1 this)
    (by rw [hlen]; exact k2) (fun gr hgr => List.mem_range.1 (k4.mem_iff.1 hgr)) hval
  refine ⟨⟨o, L, lp, ls⟩, xs, hbuild, G.done.runPartition, k2, k4, ?_, x1, x2, ?_⟩
  · intro b c lb lc hbc g1 g2 g3 g4
    exact k5 b c lb lc ((G.dep b c).2 hbc) g1 g2 g3 g4
  · have hext : ∀ sch, Ext
        (Ic0.groupLevelset A a.p a.i L lp (ls.take o.num) o.ptr o.set sch a.x)
        (fusedCode A a.p a.i ⟨o, L, lp, ls⟩ sch a.x) :=
      fun sch => groupLevelset_ext A a.p a.i L lp ls o.ptr o.set sch a.x o.num
    refine ⟨fun sch => ?_, ?_⟩
    · rcases x3.1 sch with h | h
      · exact .inl ((hext sch).eq_ok h)
      · rcases hext sch with e | e
        · exact absurd (e.symm.trans h) (by simp)
        · exact .inr (e.symm.trans h)
    · obtain ⟨sch, h⟩ := x3.2
      exact ⟨sch, (hext sch).eq_ok h⟩

section
variable {K : Type} [Add K] [LT K] [DecidableLT K]

/-- **C112, `Spic0CSCParallelLBC`.**  With two columns of which neither depends on the other, the
set-up (sorted parts or not) ends normally with a valid schedule, and every interleaving of the
factorisation gives the result of the serial one, if subtractions commute. -/
theorem C112_lbc {A : IcArith V} (hA : A.Comm) (hwf : a.WF) (hd : a.pat.DiagFirst) (hs : a.pat.Sorted)
    (hind : ∃ b c, b < a.n ∧ c < a.n ∧ b ≠ c ∧
      ¬ Relation.TransGen a.pat.Dep b c ∧ ¬ Relation.TransGen a.pat.Dep c b)
    (hsmall : a.n ≤ intMax) {P : Params K} (hin : P.innerParts ≠ 0)
    (hsort : ∀ l, (P.sort l).Perm l) {minDist divRate : Int} (h1 : 1 ≤ divRate)
    (h2 : 1 ≤ minDist + divRate) {xi0 ps0 : List Nat} (hxi : xi0.length = a.n)
    (hps : ps0.length = a.n) (conv : Int → K) (zero : K) (fsort : Bool) :
    ∃ s xs, buildLbc P conv zero fsort a.n a.p a.i minDist divRate xi0 ps0 = ok s ∧
      s.Valid a.n a.pat.Dep ∧ Ic0.ic0Csc A a.n a.p a.i a.x = ok xs ∧ a.IsIC0 A xs ∧
      AlwaysGives (fun sch => Ic0.lbc A a.p a.i s sch a.x) xs := by
  have hT := Ic0.tri hwf hd hs
  obtain ⟨b, c, hb, hc, hbc, n1, n2⟩ := hind
  have hlow : ∀ u v, a.pat.Dep u v → u < v := fun u v h => hT.dep_lt h
  have hacy : a.pat.Acyclic := by
    have : ∀ a' c, Relation.TransGen a.pat.Dep a' c → a' < c := by
      intro a' c h
      induction h with
      | single h => exact hlow _ _ h
      | tail _ h ih => have := hlow _ _ h; omega
    intro v hv
    have := this v v hv
    omega
  have hpath : ∀ v, ¬ a.pat.PathTo (a.pat.n - 1) v := by
    intro v hv
    rcases comparable_of_path hT.wf hacy hv (a := b) (b := c) hb hc hbc with h | h
    · exact n1 h
    · exact n2 h
  have hplen : a.p.length = a.n + 1 := hT.wf.plen
  obtain ⟨cost, c1, c2⟩ := wp_iff.1 (rowCosts_wp conv zero (n := a.n) (p := a.p) (by omega))
  have h0 : 0 < a.pat.n := by
    show 0 < a.n
    omega
  obtain ⟨s, s1, s2, s3⟩ := wp_iff.1 (coarsenSeq_wp hT.wf (Ic0.oneDiag hT) h0 hpath hin hsort hsmall
    (.inl ⟨h1, h2⟩) (nodeCost := cost) c2 zero (xi0 := xi0) (ps0 := ps0) hxi hps)
  have s1' : coarsenSeq P a.n a.p a.i minDist divRate cost zero xi0 ps0 = ok s := s1
  have hex : ∃ r, buildLbc P conv zero fsort a.n a.p a.i minDist divRate xi0 ps0 = ok r ∧
      r.Valid a.n a.pat.Dep := by
    unfold buildLbc
    rw [c1, ok_bind, s1', ok_bind]
    cases fsort with
    | true =>
      obtain ⟨r, r1, r2, -⟩ := wp_iff.1 (sortAllParts_wp s2 s3 hlow)
      exact ⟨r, by rw [if_pos rfl]; exact r1, r2⟩
    | false => exact ⟨s, by rw [if_neg (by decide)], s2⟩
  obtain ⟨r, r1, r2⟩ := hex
  obtain ⟨xs, x1, x2, x3⟩ := Ic0.C110_lbc hA hwf hd hs r2
  exact ⟨r, xs, r1, r2, x1, x2, x3⟩

/-- **C112, `SpicoCSC_Grouping_H2`.**  With two groups of columns of which neither depends on the
other, the set-up ends normally, its schedule lists every group once and respects the dependences
between groups, and every interleaving of the factorisation gives the result of the serial one, if
subtractions commute. -/
theorem C112_grouping_lbc {A : IcArith V} (hA : A.Comm) (hwf : a.WF) (hd : a.pat.DiagFirst) (hs : a.pat.Sorted)
    {order : List (List Nat) → List (Nat × Nat)} (hor : Order order)
    {o : RunGroup.Out} (ho : spicoCscV1 a.n a.p a.i (List.replicate (a.n + 1) 0)
      (List.replicate a.n 0) (List.replicate a.n 0) = ok o)
    (hind : ∃ b c, b < o.num ∧ c < o.num ∧ b ≠ c ∧
      ¬ Relation.TransGen (o.grouping.Dep a.pat) b c ∧ ¬ Relation.TransGen (o.grouping.Dep a.pat) c b)
    (hsmall : a.n ≤ intMax) {P : Params K} (hin : P.innerParts ≠ 0)
    (hsort : ∀ l, (P.sort l).Perm l) {minDist divRate : Int} (h1 : 1 ≤ divRate)
    (h2 : 1 ≤ minDist + divRate) {xi0 ps0 : Nat → List Nat} (hxi : ∀ k, (xi0 k).length = k)
    (hps : ∀ k, (ps0 k).length = k) (conv : Int → K) (zero : K) (fsort : Bool) :
    ∃ s xs, buildSetH2 order P conv zero fsort a.n a.p a.i minDist divRate xi0 ps0 = ok (o, s) ∧
      s.Valid o.num (o.grouping.Dep a.pat) ∧ Ic0.ic0Csc A a.n a.p a.i a.x = ok xs ∧ a.IsIC0 A xs ∧
      AlwaysGives (fun sch => Ic0.groupLbc A a.p a.i s o.ptr o.set sch a.x) xs := by
  have hT := Ic0.tri hwf hd hs
  obtain ⟨o', gv, gedg, gg, G⟩ := exists_groupGraphOk hT hor
  have hoo : o' = o := by
    have h := G.runs
    have h' : spicoCscV1 a.pat.n a.pat.p a.pat.i (List.replicate (a.pat.n + 1) 0)
      (List.replicate a.pat.n 0) (List.replicate a.pat.n 0) = ok o := ho
    rw [h'] at h
    cases h
    rfl
  subst hoo
  obtain ⟨b, c, hb, hc, hbc, n1, n2⟩ := hind
  have hrel : gg.Dep = o'.grouping.Dep a.pat := by
    funext u v; exact propext (G.dep u v)
  have hpath : ∀ v, ¬ gg.PathTo (gg.n - 1) v := by
    intro v hv
    have := comparable_of_path G.wf G.acyclic hv (a := b) (b := c) (by rw [G.gn]; exact hb)
      (by rw [G.gn]; exact hc) hbc
    rw [hrel] at this
    exact this.elim n1 n2
  have hplen : a.p.length = a.n + 1 := hT.wf.plen
  have hsetl : o'.set.length = a.n := G.done.lenSet.1
  have hset : o'.set = List.range a.n := by
    have : o'.set.take a.n = List.range a.n := G.done.set
    rw [List.take_of_length_le (le_of_eq hsetl)] at this
    exact this
  have hptr : PtrOk o'.ptr o'.num a.n := G.done.ptrOk
  obtain ⟨cost, c1, c2⟩ := wp_iff.1 (Ic0Demo.groupCosts_wp conv zero (o := o') (p := a.p) (n := a.n)
    (by omega) hptr (le_of_eq hsetl.symm) (by
      intro k hk
      rw [hset, Exec.getD_range hk]
      exact hk))
  have hgn := G.gn
  have hle : o'.num ≤ a.n := G.le
  obtain ⟨s, s1, s2, s3⟩ := wp_iff.1 (coarsenSeq_wp G.wf G.oneDiag (by omega) hpath hin hsort
    (by omega) (.inl ⟨h1, h2⟩) (nodeCost := cost) (by omega) zero (xi0 := xi0 o'.num)
    (ps0 := ps0 o'.num) (by rw [hxi, hgn]) (by rw [hps, hgn]))
  have s1' : coarsenSeq P o'.num gv gedg minDist divRate cost zero (xi0 o'.num) (ps0 o'.num) = ok s := by
    refine (coarsenSeq_ext P o'.num gv gedg minDist divRate cost zero (xi0 o'.num) (ps0 o'.num)
      (o'.num + 1)).eq_ok ?_
    rw [← s1, G.graph]
  have hex : ∃ r, buildSetH2 order P conv zero fsort a.n a.p a.i minDist divRate xi0 ps0 = ok (o', r) ∧
      r.Valid gg.n gg.Dep := by
    unfold buildSetH2
    have e1 : groupGraph order a.n a.p a.i = ok (o', gv, gedg) := G.eq
    rw [e1, ok_bind]
    dsimp only
    rw [c1, ok_bind, s1', ok_bind]
    cases fsort with
    | true =>
      obtain ⟨r, r1, r2, -⟩ := wp_iff.1 (sortAllParts_wp s2 s3 G.low)
      exact ⟨r, by rw [if_pos rfl, r1, ok_bind], r2⟩
    | false => exact ⟨s, by rw [if_neg (by decide), ok_bind], s2⟩
  obtain ⟨r, r1, r2⟩ := hex
  rw [hgn, hrel] at r2
  have hval := expand_valid (g := a.pat) (G := o'.grouping) (s := r) hT.wf G.done.partition
    (fun j hj => (G.done.runPartition.sorted j hj).imp (by
      intro x y hxy hd
      have := hT.dep_lt hd
      omega)) r2
  obtain ⟨xs, x1, x2, x3⟩ := Ic0.C110_group_lbc hA hwf hd hs (s := r) (groupPtr := o'.ptr)
    (groupSet := o'.set) (ngroups := o'.num) (listed := o'.num) (by rw [hsetl]; exact hptr)
    (by rw [hset]; exact fun i hi => List.mem_range.1 hi) r2.ptrs
    (by
      have := r2.complete.length_eq
      simp only [List.length_take, List.length_range] at this
      omega)
    (fun gr hgr => List.mem_range.1 (r2.complete.mem_iff.1 hgr)) hval
  exact ⟨r, xs, r1, r2, x1, x2, x3⟩

end

/-! ### Examples -/

/-- One thread. -/
def inOrder (found : List (List Nat)) : List (Nat × Nat) :=
  (List.range found.length).flatMap (fun i => (found.getD i []).map (fun s => (i, s)))

theorem inOrder_order : Order inOrder := fun found =>
  GGraph.sequential_interleaved found.length (fun i => found.getD i [])

open Ic0 in
/-- `C112_grouping` for `exIc`: the groups are `0` and `1 2 3`, in two levels. -/
example : exIc.WF ∧ exIc.pat.DiagFirst ∧ exIc.pat.Sorted ∧
    buildSet inOrder exIc.n exIc.p exIc.i
      = ok ⟨⟨2, [0, 1, 4, 0, 0], [0, 1, 2, 3], [0, 1, 1, 1]⟩, 2, [0, 1, 2, 0, 0], [0, 1, 0, 0]⟩ ∧
    fusedCode exIcArith exIc.p exIc.i ⟨⟨2, [0, 1, 4, 0, 0], [0, 1, 2, 3], [0, 1, 1, 1]⟩, 2, [0, 1, 2, 0, 0],
      [0, 1, 0, 0]⟩ (fun _ => List.replicate 100 0) exIc.x = ok [2, 3, 1, 2, 2, 1, 3] :=
  ⟨exIc_wf, exIc_diag, exIc_sorted, by decide +kernel, by decide +kernel⟩

/-- Columns `0 1`, `1 4`, `2 3 4`, `3`, `4`: the groups are `0 1`, `2 3`, `4`. -/
def exIc5 : Mat Int := ⟨5, [0, 2, 4, 7, 8, 9], [0, 1, 1, 4, 2, 3, 4, 3, 4], [4, 2, 2, 3, 1, 1, 1, 2, 20]⟩

theorem exIc5_wf : exIc5.WF := ⟨⟨by decide, by decide, by decide, by decide, by decide⟩, by decide⟩
theorem exIc5_diag : exIc5.pat.DiagFirst := by unfold Csc.DiagFirst; decide
theorem exIc5_sorted : exIc5.pat.Sorted := by unfold Csc.Sorted; decide

theorem exIc5_dep {u v : Nat} (h : exIc5.pat.Dep u v) :
    (u = 0 ∧ v = 1) ∨ (u = 1 ∧ v = 4) ∨ (u = 2 ∧ v = 3) ∨ (u = 2 ∧ v = 4) := by
  obtain ⟨hu, hm, hne⟩ := h
  have hu : u < 5 := hu
  have : u = 0 ∨ u = 1 ∨ u = 2 ∨ u = 3 ∨ u = 4 := by omega
  rcases this with rfl | rfl | rfl | rfl | rfl <;> simp [exIc5, Mat.pat, Csc.col, Csc.ptr] at hm <;> omega

open Ic0 in
/-- `C112_lbc` for `exIc5`: the columns 0 and 2 are independent. -/
example : ∃ s xs, buildLbc exParams (fun i => i.toNat) 0 true exIc5.n exIc5.p exIc5.i 1 1
      (List.replicate 5 7) (List.replicate 5 9) = ok s ∧
      s.Valid exIc5.n exIc5.pat.Dep ∧ ic0Csc exIcArith exIc5.n exIc5.p exIc5.i exIc5.x = ok xs ∧
      exIc5.IsIC0 exIcArith xs ∧ AlwaysGives (fun sch => Ic0.lbc exIcArith exIc5.p exIc5.i s sch exIc5.x) xs := by
  refine C112_lbc exIcArith_comm exIc5_wf exIc5_diag exIc5_sorted ⟨0, 2, by decide, by decide, by decide, ?_, ?_⟩
    (by decide) (P := exParams) (by decide) (fun _ => .refl _) (by decide) (by decide) rfl rfl _ 0 true
  all_goals
    intro h
    obtain ⟨w, -, hd⟩ := Relation.TransGen.tail'_iff.1 h
    have := exIc5_dep hd
    omega

open Ic0 in
/-- `C112_grouping_lbc` for `exIc5`: the groups `0 1` and `2 3` are independent. -/
example : ∃ s xs, buildSetH2 inOrder exParams (fun i => i.toNat) 0 true exIc5.n exIc5.p exIc5.i 1 1
      (fun k => List.replicate k 7) (fun k => List.replicate k 9)
      = ok (⟨3, [0, 2, 4, 5, 0, 0], [0, 1, 2, 3, 4], [0, 0, 1, 1, 2]⟩, s) ∧
      s.Valid 3 (Grouping.Dep ⟨3, [0, 2, 4, 5, 0, 0], [0, 1, 2, 3, 4]⟩ exIc5.pat) ∧
      ic0Csc exIcArith exIc5.n exIc5.p exIc5.i exIc5.x = ok xs ∧ exIc5.IsIC0 exIcArith xs ∧
      AlwaysGives (fun sch => groupLbc exIcArith exIc5.p exIc5.i s
        [0, 2, 4, 5, 0, 0] [0, 1, 2, 3, 4] sch exIc5.x) xs := by
  refine C112_grouping_lbc exIcArith_comm exIc5_wf exIc5_diag exIc5_sorted inOrder_order
    (o := ⟨3, [0, 2, 4, 5, 0, 0], [0, 1, 2, 3, 4], [0, 0, 1, 1, 2]⟩) (by decide)
    ⟨0, 1, by decide, by decide, by decide, ?_, ?_⟩ (by decide) (P := exParams) (by decide)
    (fun _ => .refl _) (by decide) (by decide) (by simp) (by simp) _ 0 true
  all_goals
    intro h
    obtain ⟨w, -, hne, u, v, hu, hv, hd⟩ := Relation.TransGen.tail'_iff.1 h
    have h1 := exIc5_dep hd
    obtain ⟨hw, hu⟩ := hu
    obtain ⟨-, hv⟩ := hv
    change w < 3 at hw
    rcases (by omega : w = 0 ∨ w = 1 ∨ w = 2) with rfl | rfl | rfl <;>
      simp [RunGroup.Out.grouping, groupRows] at hu hv hne <;> omega

end Verif.Ic0Demo
