import Verif.Model.TreeGroup
import Verif.Proof.SparseConv
import Verif.Proof.Graph
import Verif.Proof.GroupDag
import Verif.Proof.SchedWin

/-! # The traversals of tree-based grouping -/

namespace Verif.Group
open Res

/-- Row `h` of the inverse graph: the predecessors of `h`, then `h`. -/
structure RowsOf (g : Csc) (B : Sp Nat) : Prop where
  plen : B.p.length = g.n + 1
  row : ∀ h, h < g.n → B.p.getD h 0 + 1 ≤ B.p.getD (h + 1) 0 ∧ B.p.getD (h + 1) 0 ≤ B.i.length ∧
    (∀ u, u ∈ slice B.i (B.p.getD h 0) (B.p.getD (h + 1) 0 - 1) → u < g.n ∧ (u = h ∨ g.Dep u h)) ∧
    (∀ u, g.Dep u h → u ∈ slice B.i (B.p.getD h 0) (B.p.getD (h + 1) 0 - 1))

theorem mem_coords {V : Type} {A : Sp V} {r c : Nat} :
    (r, c) ∈ A.coords ↔ c < A.cols ∧ r ∈ A.colRows c := by
  simp [Sp.coords]

/-- A list sorted by `≤` with largest element `h`. -/
theorem sorted_last {l : List Nat} {h : Nat} (hs : l.Pairwise (· ≤ ·)) (hm : h ∈ l)
    (hle : ∀ x ∈ l, x ≤ h) : l = l.dropLast ++ [h] := by
  have hne : l ≠ [] := List.ne_nil_of_mem hm
  have e := List.dropLast_append_getLast hne
  have h1 : l.getLast hne ≤ h := hle _ (List.getLast_mem hne)
  have h2 : h ≤ l.getLast hne := by
    rw [← e] at hs hm
    rw [List.pairwise_append] at hs
    rcases List.mem_append.1 hm with h3 | h3
    · exact hs.2.2 _ h3 _ (by simp)
    · simp at h3; omega
  have : l.getLast hne = h := by omega
  rw [this] at e
  exact e.symm

theorem inverseDag_wp {g : Csc} (hg : g.WF) (hd : g.OneDiag) (hl : g.Lower) (hn : 0 < g.n)
    (hi : g.i.length = g.ptr g.n) :
    wp (inverseDag g.n g.p g.i) (RowsOf g) := by
  unfold inverseDag
  rw [hg.rd_p (le_refl _)]
  simp only [ok_bind]
  rw [if_pos ⟨by rw [hg.plen, Sp.newPtrLen, if_neg (by omega)], by omega⟩,
    hi, Nat.sub_self, List.replicate_zero, List.append_nil]
  obtain ⟨A, hA⟩ : ∃ A : Sp Nat, A = ⟨g.n, g.n, g.p, g.i, List.replicate (g.ptr g.n) 0⟩ := ⟨_, rfl⟩
  rw [← hA]
  have hp : A.PatWF := by subst hA; exact ⟨hg.plen, hg.p0, hg.mono, hg.bound, hg.range⟩
  have hr : A.rows = g.n := by rw [hA]
  have hc : A.cols = g.n := by rw [hA]
  have hcol : ∀ c, A.colRows c = g.col c := by intro c; rw [hA]; rfl
  have hpt : A.p.getD A.cols 0 = g.ptr g.n := by rw [hA]; rfl
  refine wp_mono (Sp.cscToCsr_wp (pat := false) hp (by intro _; rw [hpt, hA]; simp)
    (by omega) (by omega)) ?_
  rintro B ⟨h1, h2, h3, _, _⟩
  have hB := h3.patWF
  have hmem : ∀ h u, h < g.n → (u ∈ B.colRows h ↔ u < g.n ∧ h ∈ g.col u) := by
    intro h u hh
    have e := h3.coords_perm.mem_iff (a := (h, u))
    rw [mem_coords, hcol, hc, List.mem_map] at e
    rw [← e]
    constructor
    · intro hu; exact ⟨(u, h), mem_coords.2 ⟨by omega, hu⟩, rfl⟩
    · rintro ⟨⟨a, b⟩, hab, he⟩
      simp only [Prod.swap_prod_mk, Prod.mk.injEq] at he
      obtain ⟨rfl, rfl⟩ := he
      exact (mem_coords.1 hab).2
  refine ⟨by rw [hB.plen]; omega, ?_⟩
  intro h hh
  have hself : h ∈ B.colRows h := by
    rw [hmem h h hh]
    exact ⟨hh, List.count_pos_iff.1 (by rw [hd h hh]; omega)⟩
  have hrow := sorted_last (h3.colsSorted hp h (by omega)) hself (by
    intro x hx
    have := (hmem h x hh).1 hx
    exact hl x this.1 h this.2)
  have hmono := hB.mono h (by omega)
  have hend : B.p.getD (h + 1) 0 ≤ B.i.length := by
    have h4 : ∀ k, k ≤ B.cols → B.p.getD k 0 ≤ B.p.getD B.cols 0 := by
      intro k hk
      obtain ⟨d, hd⟩ := Nat.exists_eq_add_of_le hk
      clear hk
      induction d generalizing k with
      | zero => rw [hd]; simp
      | succ d ih => exact le_trans (hB.mono k (by omega)) (ih (k + 1) (by omega))
    exact le_trans (h4 _ (by omega)) hB.bound
  have hlen : (B.colRows h).length = B.p.getD (h + 1) 0 - B.p.getD h 0 := by
    unfold Sp.colRows
    rw [List.length_take, List.length_drop]; omega
  have hpos : 0 < (B.colRows h).length := List.length_pos_of_mem hself
  have hdl : slice B.i (B.p.getD h 0) (B.p.getD (h + 1) 0 - 1) = (B.colRows h).dropLast := by
    rw [List.dropLast_eq_take, hlen]
    unfold Sp.colRows slice
    rw [List.take_take]
    congr 1; omega
  refine ⟨by omega, hend, ?_, ?_⟩
  · intro u hu
    rw [hdl] at hu
    obtain ⟨h5, h6⟩ := (hmem h u hh).1 (List.mem_of_mem_dropLast hu)
    refine ⟨h5, ?_⟩
    by_cases huh : u = h
    · exact Or.inl huh
    · exact Or.inr ⟨h5, h6, huh⟩
  · intro u hu
    have h5 := (hmem h u hh).2 ⟨hu.1, hu.2.1⟩
    rw [hrow] at h5
    rw [hdl]
    rcases List.mem_append.1 h5 with h6 | h6
    · exact h6
    · simp at h6; exact absurd h6 hu.2.2

/-! ### Trees -/

/-- The single successor of a node with two entries in its column. -/
def onlySucc (g : Csc) (u : Nat) : Nat := ((g.col u).filter (· ≠ u)).headD u

/-- The root of the tree of `u`: follow single successors. -/
def treeRoot (g : Csc) (u : Nat) : Nat :=
  if _ : (g.col u).length = 2 ∧ u < onlySucc g u ∧ onlySucc g u < g.n then
    treeRoot g (onlySucc g u) else u
termination_by g.n - u

variable {g : Csc}

theorem succ_unique (hd : g.OneDiag) {u v w : Nat} (h2 : (g.col u).length = 2) (hv : g.Dep u v)
    (hw : g.Dep u w) : v = w := by
  obtain ⟨a, b, e⟩ := List.length_eq_two.1 h2
  have h1 := hd u hv.1
  have hv1 := hv.2.1
  have hw1 := hw.2.1
  rw [e] at h1 hv1 hw1
  have := hv.2.2
  have := hw.2.2
  simp [List.count_cons] at h1 hv1 hw1
  by_cases ha : a = u <;> by_cases hb : b = u <;> simp [ha, hb] at h1 <;> omega

theorem onlySucc_eq (hd : g.OneDiag) {u v : Nat} (h2 : (g.col u).length = 2) (hv : g.Dep u v) :
    onlySucc g u = v := by
  have hm : v ∈ (g.col u).filter (· ≠ u) := by
    simp only [List.mem_filter, decide_eq_true_eq]
    exact ⟨hv.2.1, fun h => hv.2.2 h.symm⟩
  unfold onlySucc
  cases hf : (g.col u).filter (· ≠ u) with
  | nil => rw [hf] at hm; cases hm
  | cons a l =>
    have : a ∈ (g.col u).filter (· ≠ u) := by rw [hf]; simp
    simp only [List.mem_filter, decide_eq_true_eq] at this
    exact succ_unique hd h2 ⟨hv.1, this.1, fun h => this.2 h.symm⟩ hv

theorem Dep_lt (hl : g.Lower) {u v : Nat} (h : g.Dep u v) : u < v := by
  have := hl u h.1 v h.2.1
  have := h.2.2
  omega

theorem treeRoot_step (hg : g.WF) (hd : g.OneDiag) (hl : g.Lower) {u v : Nat}
    (h2 : (g.col u).length = 2) (hv : g.Dep u v) : treeRoot g u = treeRoot g v := by
  have e := onlySucc_eq hd h2 hv
  rw [treeRoot, dif_pos ⟨h2, by rw [e]; exact Dep_lt hl hv, by rw [e]; exact (hg.dep_lt hv).2⟩, e]

theorem treeRoot_self {u : Nat} (h2 : (g.col u).length ≠ 2) : treeRoot g u = u := by
  rw [treeRoot, dif_neg (fun h => h2 h.1)]

theorem le_treeRoot (g : Csc) : ∀ k u, g.n - u ≤ k → u ≤ treeRoot g u := by
  intro k
  induction k with
  | zero =>
    intro u hu
    rw [treeRoot, dif_neg (by omega)]
  | succ k ih =>
    intro u hu
    rw [treeRoot]
    split
    · next h => have := ih (onlySucc g u) (by omega); omega
    · exact le_refl _

/-- A node with a successor has at least two entries in its column. -/
theorem two_le_col (hd : g.OneDiag) {u v : Nat} (hv : g.Dep u v) : 2 ≤ (g.col u).length := by
  have h1 := hd u hv.1
  have h2 : 0 < (g.col u).count v := List.count_pos_iff.2 hv.2.1
  by_contra hc
  cases e : g.col u with
  | nil => rw [e] at h2; simp at h2
  | cons a l =>
    rw [e] at hc h1 h2
    simp only [List.length_cons] at hc
    have : l = [] := List.length_eq_zero_iff.1 (by omega)
    subst this
    have h3 := hv.2.1
    have h4 := hv.2.2
    rw [e] at h3
    have h5 : u ∈ [a] := List.count_pos_iff.1 (by omega)
    simp at h3 h5
    omega

theorem col_one_of_no_succ (hd : g.OneDiag) {u : Nat} (hu : u < g.n)
    (h : ∀ v, ¬ g.Dep u v) : (g.col u).length = 1 := by
  have h1 := hd u hu
  have hall : ∀ v ∈ g.col u, v = u := by
    intro v hv
    by_contra hne
    exact h v ⟨hu, hv, fun e => hne e.symm⟩
  rw [List.count_eq_length.2 (fun b hb => (hall b hb).symm)] at h1
  exact h1

theorem onlyWay_treeRoot (hd : g.OneDiag) :
    ∀ k u, u < g.n → g.n - u ≤ k → g.OnlyWay u (treeRoot g u) := by
  intro k
  induction k with
  | zero => intro u h1 h2; omega
  | succ k ih =>
    intro u hu hk
    rw [treeRoot]
    split
    · next h =>
      obtain ⟨v, hv⟩ : ∃ v, g.Dep u v := by
        by_contra hc
        push Not at hc
        have := col_one_of_no_succ hd hu hc
        omega
      have e := onlySucc_eq hd h.1 hv
      rw [e] at h ⊢
      exact .step hv (fun w hw => succ_unique hd h.1 hw hv) (ih v h.2.2 (by omega))
    · exact .refl _

/-- All nodes known to the traversal; `E` are the nodes already taken from the stack. -/
def known (E : List Nat) (s : Trav) : List Nat := E ++ (s.stack ++ s.roots)

/-- Invariant of the traversal: `E` are the nodes taken from the stack so far, `R` is the root of
the current tree. -/
structure TI (g : Csc) (E : List Nat) (R : Nat) (s : Trav) : Prop where
  vlen : s.visited.length = g.n
  lt : ∀ v ∈ known E s, v < g.n
  nodup : (known E s).Nodup
  vis : ∀ v, v < g.n → (s.visited.getD v false = true ↔
    v ∈ E ∨ v ∈ s.stack ∨ (v ∈ s.roots ∧ (g.col v).length ≠ 1))
  ord : ∀ pre u post w, E = pre ++ u :: post → (g.col u).length = 2 → g.Dep u w → w ∈ pre
  wait : ∀ u w, u ∈ s.stack ++ s.roots → (g.col u).length = 2 → g.Dep u w → w ∈ E
  rt : ∀ u ∈ s.stack, treeRoot g u = R

/-- What the loop over the children does not change. -/
structure SameOut (g : Csc) (s s' : Trav) : Prop where
  ngroups : s'.ngroups = s.ngroups
  ptr : s'.ptr = s.ptr
  set : s'.set = s.set
  cnt : s'.cnt = s.cnt
  last : s'.last = s.last
  stack : ∀ v ∈ s'.stack, v ∈ s.stack ∨ (g.col v).length = 2

theorem visitChild_wp (hg : g.WF) (hd : g.OneDiag) (hl : g.Lower) {E : List Nat} {R : Nat}
    {s : Trav} (hI : TI g E R s) {u h : Nat} (hu : u < g.n) (huh : u = h ∨ g.Dep u h) (hE : h ∈ E)
    (hR : treeRoot g h = R) :
    wp (visitChild g.p u s) fun s' => TI g E R s' ∧ SameOut g s s' ∧
      (∀ v ∈ known E s, v ∈ known E s') ∧ u ∈ known E s' := by
  unfold visitChild
  rw [rd_getD false (by rw [hI.vlen]; exact hu)]
  simp only [ok_bind]
  by_cases hs : s.visited.getD u false = true
  · rw [if_pos hs, wp_ok]
    refine ⟨hI, ⟨rfl, rfl, rfl, rfl, rfl, fun _ h => Or.inl h⟩, fun v hv => hv, ?_⟩
    rcases (hI.vis u hu).1 hs with h1 | h1 | h1 <;> simp [known, h1]
  · rw [if_neg hs]
    have hnk : u ∉ E ∧ u ∉ s.stack ∧ (u ∈ s.roots → (g.col u).length = 1) := by
      have := mt (hI.vis u hu).2 hs
      push Not at this
      exact this
    have hdep : g.Dep u h := by
      rcases huh with rfl | h1
      · exact absurd hE hnk.1
      · exact h1
    have h2 := two_le_col hd hdep
    have hnr : u ∉ s.roots := fun h1 => by have := hnk.2.2 h1; omega
    have hcl := hg.col_length hu
    have hm := hg.mono u hu
    rw [wr_eq (by rw [hI.vlen]; exact hu), hg.rd_p (by omega), hg.rd_p (by omega)]
    simp only [ok_bind]
    have hnew : ∀ st ro, (known E ⟨ro, st, s.visited.set u true, s.fin, 0, [], [], 0, 0⟩).Perm
        (known E s ++ [u]) → ∀ f, ((st ++ ro).Perm (s.stack ++ s.roots ++ [u])) →
        (∀ v, v ∈ st → treeRoot g v = R) →
        (∀ v, v ∈ st ∨ (v ∈ ro ∧ (g.col v).length ≠ 1) ↔
          (v ∈ s.stack ∨ (v ∈ s.roots ∧ (g.col v).length ≠ 1)) ∨ v = u) →
        TI g E R ⟨ro, st, s.visited.set u true, f, s.ngroups, s.ptr, s.set, s.cnt, s.last⟩ := by
      intro st ro hp f hp2 hrt hv
      have hp' : ∀ f, (known E ⟨ro, st, s.visited.set u true, f, s.ngroups, s.ptr, s.set, s.cnt,
          s.last⟩).Perm (known E s ++ [u]) := fun f => hp
      refine ⟨by simpa using hI.vlen, ?_, ?_, ?_, hI.ord, ?_, hrt⟩
      · intro v hv
        rcases List.mem_append.1 ((hp' f).mem_iff.1 hv) with h1 | h1
        · exact hI.lt v h1
        · simp at h1; omega
      · rw [(hp' f).nodup_iff, List.nodup_append]
        refine ⟨hI.nodup, by simp, ?_⟩
        rintro a ha b hb rfl
        simp only [List.mem_singleton] at hb
        subst hb
        simp only [known, List.mem_append] at ha
        rcases ha with h1 | h1 | h1
        · exact hnk.1 h1
        · exact hnk.2.1 h1
        · exact hnr h1
      · intro v hvn
        dsimp only
        rw [getD_set, hv v]
        by_cases hvu : v = u
        · subst hvu
          rw [if_pos ⟨rfl, by rw [hI.vlen]; exact hu⟩]
          simp
        · rw [if_neg (by rintro ⟨h1, _⟩; exact hvu h1.symm), hI.vis v hvn]
          simp [hvu]
      · intro v w hvm h3 h4
        rcases List.mem_append.1 (hp2.mem_iff.1 hvm) with h1 | h1
        · exact hI.wait v w h1 h3 h4
        · simp at h1
          subst h1
          rw [succ_unique hd h3 h4 hdep]; exact hE
    by_cases h3 : g.ptr u + 2 < g.ptr (u + 1)
    · rw [if_pos h3, wp_ok]
      refine ⟨hnew s.stack (s.roots ++ [u]) ?_ true ?_ hI.rt ?_,
        ⟨rfl, rfl, rfl, rfl, rfl, fun _ h => Or.inl h⟩, ?_, ?_⟩
      · simp [known]
      · simp
      · intro v
        simp only [List.mem_append, List.mem_singleton]
        constructor
        · rintro (h1 | ⟨h1 | h1, h4⟩)
          · exact Or.inl (Or.inl h1)
          · exact Or.inl (Or.inr ⟨h1, h4⟩)
          · exact Or.inr h1
        · rintro ((h1 | ⟨h1, h4⟩) | h1)
          · exact Or.inl h1
          · exact Or.inr ⟨Or.inl h1, h4⟩
          · subst h1; exact Or.inr ⟨Or.inr rfl, by omega⟩
      · intro v hv; simp only [known, List.mem_append] at hv ⊢; tauto
      · simp [known]
    · have h4 : g.ptr u + 2 = g.ptr (u + 1) := by omega
      rw [if_neg h3, if_pos h4, wp_ok]
      refine ⟨hnew (s.stack ++ [u]) s.roots ?_ s.fin ?_ ?_ ?_, ⟨rfl, rfl, rfl, rfl, rfl, ?_⟩, ?_, ?_⟩
      · simp only [known, List.append_assoc]
        exact (List.perm_append_comm.append_left _).append_left _
      · simp only [List.append_assoc]
        exact List.perm_append_comm.append_left _
      · intro v hv
        rcases List.mem_append.1 hv with h1 | h1
        · exact hI.rt v h1
        · simp at h1; subst h1
          rw [treeRoot_step hg hd hl (by omega) hdep, hR]
      · intro v
        simp only [List.mem_append, List.mem_singleton]
        tauto
      · intro v hv
        rcases List.mem_append.1 hv with h1 | h1
        · exact Or.inl h1
        · simp only [List.mem_singleton] at h1; subst h1; exact Or.inr (by omega)
      · intro v hv; simp only [known, List.mem_append] at hv ⊢; tauto
      · simp [known]

theorem visitChildren_wp (hg : g.WF) (hd : g.OneDiag) (hl : g.Lower) {B : Sp Nat}
    (hB : RowsOf g B) {E : List Nat} {R : Nat} {s : Trav} (hI : TI g E R s) {h : Nat} (hE : h ∈ E)
    (hR : treeRoot g h = R) :
    wp (visitChildren g.p B h s) fun s' => TI g E R s' ∧ SameOut g s s' ∧
      (∀ v ∈ known E s, v ∈ known E s') ∧ ∀ u, g.Dep u h → u ∈ known E s' := by
  have hh : h < g.n := hI.lt h (by simp [known, hE])
  obtain ⟨h1, h2, h3, h4⟩ := hB.row h hh
  unfold visitChildren
  rw [rd_getD 0 (by rw [hB.plen]; omega), rd_getD 0 (by rw [hB.plen]; omega)]
  simp only [ok_bind]
  have hs := forRange_slice B.i (fun c s => visitChild g.p c s) s (lo := B.p.getD h 0)
    (hi := B.p.getD (h + 1) 0 - 1) (by omega) (by omega)
  change wp (forRange _ _ (fun i s => Res.bind (rd B.i i) fun c => visitChild g.p c s) s) _
  rw [hs]
  have := forEach_wp (f := fun c s => visitChild g.p c s)
    (fun pre s' => TI g E R s' ∧ SameOut g s s' ∧ (∀ v ∈ known E s, v ∈ known E s') ∧
      ∀ u ∈ pre, u ∈ known E s') (slice B.i (B.p.getD h 0) (B.p.getD (h + 1) 0 - 1)) [] s
    ⟨hI, ⟨rfl, rfl, rfl, rfl, rfl, fun _ h => Or.inl h⟩, fun v hv => hv, by simp⟩ (by
      rintro p a q s1 he ⟨k1, k2, k3, k4⟩
      have ha := h3 a (by rw [List.nil_append] at he; rw [he]; simp)
      refine wp_mono (visitChild_wp hg hd hl k1 ha.1 ha.2 hE hR) ?_
      rintro s2 ⟨m1, m2, m3, m4⟩
      refine ⟨m1, ?_, fun v hv => m3 v (k3 v hv), ?_⟩
      · exact ⟨m2.ngroups.trans k2.ngroups, m2.ptr.trans k2.ptr, m2.set.trans k2.set,
          m2.cnt.trans k2.cnt, m2.last.trans k2.last, fun v hv =>
            (m2.stack v hv).elim (fun h => k2.stack v h) Or.inr⟩
      · intro u hu
        rcases List.mem_append.1 hu with h5 | h5
        · exact m3 u (k4 u h5)
        · simp at h5; subst h5; exact m4)
  refine wp_mono this ?_
  rintro s' ⟨k1, k2, k3, k4⟩
  exact ⟨k1, k2, k3, fun u hu => k4 u (by simpa using h4 u hu)⟩

end Verif.Group
