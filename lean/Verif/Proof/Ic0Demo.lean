import Verif.Model.Ic0Demo
import Verif.Props.GroupGraph
import Verif.Props.LbcSeq
import Verif.Props.Ic0

/-! # The graph of groups of the incomplete Cholesky demo -/

namespace Verif.Ic0Demo
open Res Csc RunGroup Hdagg Exec

/-- The arrays made of lists of other groups are a graph with these edges. -/
theorem flatGraph {n num : Nat} {dag : List (List Nat)} (hn : num ≤ n) (hl : dag.length = num)
    (hm : ∀ c, c < num → ∀ v ∈ dag.getD c [], v < num ∧ c ≠ v) :
    ∃ gv gedg gg, flatten n num dag = ok (gv, gedg) ∧ gg = (⟨num, gv.take (num + 1), gedg⟩ : Csc) ∧
      gg.WF ∧ gg.DiagFirst ∧ gg.OneDiag ∧ ∀ a c, gg.Dep a c ↔ a < num ∧ c ∈ dag.getD a [] := by
  obtain ⟨⟨gv, gedg⟩, h5, h6, h7, h8⟩ := wp_iff.1 (flatten_wp (n := n) hn hl)
  dsimp only at h6 h7 h8
  obtain ⟨gg, hgg⟩ : ∃ gg : Csc, gg = ⟨num, gv.take (num + 1), gedg⟩ := ⟨_, rfl⟩
  have hcl : (cols num dag).length = num := by simp [cols]
  have hcg : ∀ c, c < num → (cols num dag).getD c [] = c :: dag.getD c [] := by
    intro c hc
    unfold cols
    rw [List.getD_eq_getElem?_getD, List.getElem?_map, List.getElem?_range hc]
    rfl
  have hptr : ∀ k, k ≤ num → gg.ptr k = (ofCols (cols num dag)).ptr k := by
    intro k hk
    rw [hgg]
    unfold Csc.ptr
    dsimp only
    rw [h7]
  have hcol : ∀ c, c < num → gg.col c = c :: dag.getD c [] := by
    intro c hc
    rw [← hcg c hc, ← ofCols_col _ (by rw [hcl]; exact hc)]
    unfold Csc.col
    rw [hptr c hc.le, hptr (c + 1) hc]
    obtain ⟨ext, hext⟩ := h8
    have hi : gg.i = (ofCols (cols num dag)).i ++ ext := by rw [hgg]; exact hext.symm
    have hle : (ofCols (cols num dag)).ptr (c + 1) ≤ (ofCols (cols num dag)).i.length := by
      rw [ofCols_ptr _ (by rw [hcl]; exact hc)]
      have := Group.flatten_take_le (cols num dag) (a := c + 1)
        (b := (cols num dag).length) (by rw [hcl]; exact hc)
      rw [List.take_length] at this
      exact this
    have hle' : (ofCols (cols num dag)).ptr c ≤ (ofCols (cols num dag)).ptr (c + 1) := by
      rw [ofCols_ptr _ (by rw [hcl]; exact hc.le), ofCols_ptr _ (by rw [hcl]; exact hc)]
      exact Group.flatten_take_le _ (by omega)
    rw [hi, List.drop_append_of_le_length (by omega),
      List.take_append_of_le_length (by rw [List.length_drop]; omega)]
  have hgn : gg.n = num := by rw [hgg]
  refine ⟨gv, gedg, gg, h5, hgg, ⟨?_, ?_, ?_, ?_, ?_⟩, ?_, ?_, ?_⟩
  · rw [hgg]; dsimp only; rw [List.length_take, h6]; omega
  · rw [hptr 0 (Nat.zero_le _), ofCols_ptr _ (Nat.zero_le _)]; rfl
  · intro u hu
    rw [hgn] at hu
    rw [hptr u hu.le, hptr (u + 1) hu, ofCols_ptr _ (by rw [hcl]; exact hu.le),
      ofCols_ptr _ (by rw [hcl]; exact hu)]
    exact Group.flatten_take_le _ (by omega)
  · rw [hgn, hptr _ (Nat.le_refl _), ofCols_ptr _ (by rw [hcl])]
    have : (cols num dag).take num = cols num dag := List.take_of_length_le hcl.le
    rw [this]
    have := h8.length_le
    rw [hgg]; exact this
  · intro u hu v hv
    rw [hgn] at hu ⊢
    rw [hcol u hu] at hv
    rcases List.mem_cons.1 hv with rfl | hv
    · exact hu
    · exact (hm u hu v hv).1
  · intro u hu
    rw [hgn] at hu
    rw [hcol u hu]; rfl
  · intro u hu
    rw [hgn] at hu
    rw [hcol u hu, List.count_cons_self, List.count_eq_zero_of_not_mem]
    intro hc
    exact (hm u hu u hc).2 rfl
  · intro a c
    constructor
    · rintro ⟨ha, hc, hne⟩
      rw [hgn] at ha
      rw [hcol a ha] at hc
      rcases List.mem_cons.1 hc with rfl | hc
      · exact absurd rfl hne
      · exact ⟨ha, hc⟩
    · rintro ⟨ha, hc⟩
      exact ⟨by rw [hgn]; exact ha, by rw [hcol a ha]; exact List.mem_cons_of_mem _ hc, (hm a ha c hc).2⟩

theorem mem_tail {g : Csc} (hT : Ic0.Tri g) {c r : Nat} (hc : c < g.n) :
    r ∈ (g.col c).tail ↔ r ∈ g.col c ∧ c ≠ r := by
  have h1 := hT.diag c hc
  have h2 := (hT.sorted c hc).nodup
  cases h : g.col c with
  | nil => rw [h] at h1; simp at h1
  | cons x t =>
    rw [h] at h1 h2
    simp only [List.head?_cons, Option.some.injEq] at h1
    subst h1
    rw [List.tail_cons, List.mem_cons]
    rw [List.nodup_cons] at h2
    constructor
    · intro hr
      exact ⟨.inr hr, fun e => h2.1 (e ▸ hr)⟩
    · rintro ⟨e | e, hne⟩
      · exact absurd e.symm hne
      · exact e

theorem collect_found {num : Nat} {f : Nat → Res (List Nat)} {found : Nat → List Nat}
    (h : ∀ i, i < num → f i = ok (found i)) :
    forRange 0 num (fun i acc => do
      let l ← f i
      ok (acc ++ [l])) [] = ok ((List.range num).map found) := by
  have key := wp_iff.1 (forRange_wp (fun k (acc : List (List Nat)) => acc = (List.range k).map found)
    (lo := 0) (hi := num) (f := fun i acc => do
      let l ← f i
      ok (acc ++ [l])) (s := []) (Nat.zero_le _) rfl (by
      intro i acc _ hi h1
      rw [h i hi, ok_bind, wp_ok, h1, List.range_succ, List.map_append]
      rfl))
  obtain ⟨r, h1, h2⟩ := key
  rw [h1, h2]

/-- The groups and their graph. -/
structure GroupGraphOk (g : Csc) (order : List (List Nat) → List (Nat × Nat)) (o : Out)
    (gv gedg : List Nat) (gg : Csc) : Prop where
  runs : spicoCscV1 g.n g.p g.i (List.replicate (g.n + 1) 0) (List.replicate g.n 0)
    (List.replicate g.n 0) = ok o
  done : Done g.n g.n (linkCsc g) o
  eq : groupGraph order g.n g.p g.i = ok (o, gv, gedg)
  graph : gg = ⟨o.num, gv.take (o.num + 1), gedg⟩
  le : o.num ≤ g.n
  gn : gg.n = o.num
  wf : gg.WF
  diagFirst : gg.DiagFirst
  oneDiag : gg.OneDiag
  dep : ∀ a c, gg.Dep a c ↔ o.grouping.Dep g a c
  low : ∀ a c, gg.Dep a c → a < c
  acyclic : gg.Acyclic

theorem exists_groupGraphOk {g : Csc} (hT : Ic0.Tri g) {order : List (List Nat) → List (Nat × Nat)}
    (ho : Order order) : ∃ o gv gedg gg, GroupGraphOk g order o gv gedg gg := by
  have hwf := hT.wf
  obtain ⟨o, h1, h2⟩ := wp_iff.1 (spicoCscV1_wp hwf
    (ptr := List.replicate (g.n + 1) 0) (set := List.replicate g.n 0) (inv := List.replicate g.n 0)
    (by rw [List.length_replicate]; exact Nat.lt_succ_self _)
    (by rw [List.length_replicate]) (by rw [List.length_replicate]))
  rw [List.length_replicate] at h2
  have hnum : o.num ≤ g.n := by rw [h2.num]; exact runs_le _
  obtain ⟨found, d, f1, -, f3, f4, -, f6⟩ := GGraph.C102_parallel (g := g) (G := o.grouping) (inv := o.inv) hwf
    h2.partition h2.lenInv (dag := List.replicate o.num []) (by rw [List.length_replicate]; exact Nat.le_refl _)
  rw [List.length_replicate] at f4
  have hgnum : o.grouping.num = o.num := rfl
  -- the lists of successors
  have hmem : ∀ i, i < o.num → ∀ s, s ∈ (uniqueAll d).getD i [] ↔ o.grouping.Dep g i s := by
    intro i hi s
    have e : (uniqueAll d).getD i [] = Group.stdUnique (d.getD i []) := by
      unfold uniqueAll
      rw [List.getD_eq_getElem _ _ (by rw [List.length_map]; omega), List.getElem_map,
        List.getD_eq_getElem _ _ (by omega)]
    rw [e, Group.mem_stdUnique]
    obtain ⟨new, n1, n2⟩ := f6 i hi
    rw [n1, getD_replicate _ _ _ _ hi, List.nil_append, n2]
    constructor
    · rintro ⟨hne, c, r, hc, hr, hs⟩
      have hcn := (h2.mem_iff.1 hc).1
      have hr' := (mem_tail hT hcn).1 hr
      have hrn := hwf.range c hcn r hr'.1
      refine ⟨fun h => hne h.symm, c, r, hc, h2.mem_iff.2 ⟨hrn, ?_⟩, hcn, hr'.1, hr'.2⟩
      rw [← h2.inv r hrn, hs]
    · rintro ⟨hne, c, r, hc, hr, hcn, hr1, hr2⟩
      refine ⟨fun h => hne h.symm, c, r, hc, (mem_tail hT hcn).2 ⟨hr1, hr2⟩, ?_⟩
      have := h2.mem_iff.1 hr
      rw [h2.inv r this.1, this.2]
  have hdl : (uniqueAll d).length = o.num := by rw [uniqueAll, List.length_map, f4]
  obtain ⟨gv, gedg, gg, q1, q2, q3, q4, q5, q6⟩ := flatGraph hnum hdl (by
    intro c hc v hv
    obtain ⟨hne, u, w, hu, hw, -⟩ := (hmem c hc v).1 hv
    exact ⟨hw.1, hne⟩)
  have hdep : ∀ a c, gg.Dep a c ↔ o.grouping.Dep g a c := by
    intro a c
    rw [q6]
    constructor
    · rintro ⟨ha, h⟩
      exact (hmem a ha c).1 h
    · intro h
      have ha : a < o.num := by
        obtain ⟨-, u, w, hu, -⟩ := h
        exact hu.1
      exact ⟨ha, (hmem a ha c).2 h⟩
  have hlow : ∀ a c, gg.Dep a c → a < c := by
    intro a c hac
    obtain ⟨hne, u, v, hu, hv, huv⟩ := (hdep a c).1 hac
    have := hT.dep_lt huv
    have e1 := (h2.mem_iff.1 hu).2
    have e2 := (h2.mem_iff.1 hv).2
    have := grp_mono (link := linkCsc g) (a := u) (b := v) (by omega)
    omega
  have hac : gg.Acyclic := by
    have : ∀ a c, Relation.TransGen gg.Dep a c → a < c := by
      intro a c h
      induction h with
      | single h => exact hlow _ _ h
      | tail _ h ih => have := hlow _ _ h; omega
    intro v hv
    have := this v v hv
    omega
  have hgl : groupLists order o g.p g.i = ok d := by
    unfold groupLists
    have e := collect_found (num := o.num) (f := fun i => GGraph.ic0Found o.ptr o.set o.inv g.p g.i i)
      (found := found) f1
    rw [e, ok_bind]
    apply f3
    have := ho ((List.range o.num).map found)
    rw [List.length_map, List.length_range] at this
    refine ⟨this.1, fun i hi => ?_⟩
    rw [this.2 i hi]
    congr 1
    have hi' : i < o.num := hi
    show ((List.range o.num).map found).getD i [] = found i
    rw [List.getD_eq_getElem _ _ (by simpa using hi'), List.getElem_map, List.getElem_range]
  refine ⟨o, gv, gedg, gg, h1, h2, ?_, q2, hnum, by rw [q2], q3, q4, q5, hdep, hlow, hac⟩
  unfold groupGraph
  rw [h1, ok_bind, hgl, ok_bind, q1, ok_bind]

theorem groupLevelset_ext {V : Type} (A : IcArith V) (Lp Li : List Nat) (levels : Nat)
    (levelPtr levelSet gp gs : List Nat) (sch : Nat → List Nat) (x : List V) (k : Nat) :
    Ext (Ic0.groupLevelset A Lp Li levels levelPtr (levelSet.take k) gp gs sch x)
      (Ic0.groupLevelset A Lp Li levels levelPtr levelSet gp gs sch x) := by
  unfold Ic0.groupLevelset Mach.levelLoop
  refine forRange_ext (fun l x => ?_) _ _ _
  refine Ext.bind Ext.rfl' fun lo => Ext.bind Ext.rfl' fun hi => Ext.bind ?_ fun c => Ext.rfl'
  unfold Mach.parCodes
  refine forRange_ext (fun i s => ?_) _ _ _
  exact Ext.bind (Ext.bind (rd_take_ext _ _ _) fun gr => Ext.rfl') fun c => Ext.rfl'

theorem groupCosts_wp {K : Type} [Add K] (conv : Int → K) (zero : K) {o : RunGroup.Out} {p : List Nat}
    {n : Nat} (hp : n < p.length) (ho : PtrOk o.ptr o.num n) (hs : n ≤ o.set.length)
    (hset : ∀ k, k < n → o.set.getD k 0 < n) :
    wp (groupCosts conv zero o p) (fun c => c.length = o.num) := by
  unfold groupCosts
  refine forRange_wp (fun _ (c : List K) => c.length = o.num) (Nat.zero_le _) (by simp) ?_
  intro i c _ hi hc
  have hl := ho.len
  rw [rd_getD 0 (by omega), ok_bind, rd_getD 0 (by omega), ok_bind]
  refine forRange_wp (fun _ (c : List K) => c.length = o.num) (ho.dmono hi) hc ?_
  intro j c _ hj hc
  have := ho.dle (b := i + 1) hi
  have h1 := hset j (by omega)
  rw [rd_getD 0 (by omega), ok_bind, rd_getD 0 (by omega), ok_bind, rd_getD 0 (by omega), ok_bind,
    rd_getD zero (by omega), ok_bind, wr_eq (by omega), wp_ok]
  simpa using hc

end Verif.Ic0Demo
