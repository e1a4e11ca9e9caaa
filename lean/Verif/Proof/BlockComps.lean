import Verif.Proof.BlockDfs
import Verif.Proof.LbcComps

/-! # The components of a window in the blocked LBC inspector -/

namespace Verif.Blocked
open Res Csc BlockCsc Lbc LevelSet Hdagg

variable {M : BlockCsc} {L : Nat} {ptr set ntl : List Nat}

theorem bind_inv {α β : Type} {x : Res α} {f : α → Res β} {b : β} (h : (x >>= f) = ok b) :
    ∃ a, x = ok a ∧ f a = ok b := by
  cases x <;> first | exact ⟨_, rfl, h⟩ | cases h

/-! ### `make_unique` on equal labels -/

theorem makeUnique_one {n : Nat} {lab : List Int} (hlab : lab.length = n) {t : Nat} (ht : t < n)
    {list : List Nat} (hl : ∀ x ∈ list, x < n ∧ lab.getD x 0 = t) :
    wp (makeUnique lab list (List.replicate n false)) (fun r => r.1.length ≤ 1) := by
  unfold makeUnique
  rw [wp_bind]
  have key := forEach_wp (fun _ (s : List Nat × Nat × List Bool) => s.2.2.length = n ∧
      (∀ x ∈ s.1, x < n ∧ lab.getD x 0 = t) ∧
      (s.1 = [] ∨ (s.1.length = 1 ∧ s.2.2.getD t false = true)))
    (f := uniqueStep lab) list [] ([], intMax, List.replicate n false) ⟨by simp, by simp, .inl rfl⟩ ?_
  · refine wp_mono key ?_
    rintro ⟨kept, mn, ws⟩ ⟨h1, h2, h3⟩
    dsimp only at h1 h2 h3 ⊢
    rw [wp_bind]
    have key2 := forEach_wp (fun _ (ws' : List Bool) => ws'.length = n)
      (f := fun x ws => do
        let t ← rd lab x
        wrZ ws t false) kept [] ws h1 ?_
    · refine wp_mono key2 ?_
      intro ws' _
      rw [wp_ok]
      rcases h3 with h3 | h3
      · dsimp only; rw [h3]; exact Nat.zero_le _
      · exact h3.1.le
    · intro p x q ws' he h4
      rw [List.nil_append] at he
      have hx := h2 x (by rw [he]; simp)
      rw [rd_getD 0 (by omega), ok_bind, hx.2, wrZ_nat _ (by omega), wp_ok]
      simpa using h4
  · rintro p x q ⟨kept, mn, ws⟩ he ⟨h1, h2, h3⟩
    rw [List.nil_append] at he
    dsimp only at h1 h2 h3 ⊢
    have hx := hl x (by rw [he]; simp)
    unfold uniqueStep
    dsimp only
    rw [rd_getD 0 (by omega), ok_bind, hx.2, rdZ_nat false (by omega), ok_bind]
    by_cases hw : ws.getD t false = true
    · rw [if_neg (by rw [hw]; decide), wp_ok]
      exact ⟨h1, h2, h3⟩
    · rw [if_pos (by simpa using hw), wrZ_nat _ (by omega), ok_bind, wp_ok]
      have hk : kept = [] := h3.resolve_right fun h => hw h.2
      subst hk
      refine ⟨by simpa using h1, by intro y hy; simp at hy; rw [hy]; exact hx, .inr ⟨rfl, ?_⟩⟩
      dsimp only
      rw [getD_set, if_pos ⟨rfl, by omega⟩]

/-! ### The nodes found by a search form a chain -/

theorem reach_lev (h : M.WF) (hO : LevelOk M.graph L ptr set ntl) {a b : Nat} (hr : M.Reach a b) :
    ntl.getD a 0 ≤ ntl.getD b 0 := by
  induction hr with
  | refl => exact Nat.le_refl _
  | tail _ hd ih =>
    have := LevelOk.dep_lt h.graph hO (h.dep_iff.2 hd)
    omega

theorem reach_lt {a b : Nat} (ha : a < M.n) (hr : M.Reach a b) : b < M.n := by
  induction hr with
  | refl => exact ha
  | tail _ hd _ => exact hd.lt.2

/-- If every two blocks that depend on the same block are comparable, then so are every two blocks
that are reachable from the same block. -/
theorem comparable_reach (h : M.WF) (hO : LevelOk M.graph L ptr set ntl) (hc : M.Comparable) :
    ∀ k a, L - ntl.getD a 0 ≤ k → ∀ x y, M.Reach a x → M.Reach a y → M.Reach x y ∨ M.Reach y x := by
  intro k
  induction k with
  | zero =>
    intro a hk x y hx hy
    rcases Relation.ReflTransGen.cases_head hx with rfl | ⟨b, hd, -⟩
    · exact .inl hy
    · exfalso
      have := LevelOk.ntlLt hO a hd.lt.1
      omega
  | succ k ih =>
    intro a hk x y hx hy
    rcases Relation.ReflTransGen.cases_head hx with rfl | ⟨b, hd, hbx⟩
    · exact .inl hy
    rcases Relation.ReflTransGen.cases_head hy with rfl | ⟨b', hd', hby⟩
    · exact .inr hx
    have h1 := LevelOk.dep_lt h.graph hO (h.dep_iff.2 hd)
    have h2 := LevelOk.dep_lt h.graph hO (h.dep_iff.2 hd')
    rcases hc a b b' hd hd' with hbb | hbb
    · exact ih b (by omega) x y hbx (hbb.trans hby)
    · exact ih b' (by omega) x y (hbb.trans hbx) hby

section
variable {K : Type} [Add K]

/-- The state of the other inspector. -/
def toB (s : Lbc.Comps K) : Comps K := ⟨s.lab, s.marked, s.outCost, s.cc, s.xi, s.ps, s.uniq⟩

omit [Add K] in
theorem same_of_reach (h : M.WF) (hO : LevelOk M.graph L ptr set ntl) {W : List Nat} {d done : Nat}
    (hW : ∀ v, v < M.n → d ≤ ntl.getD v 0 → ∀ w ∈ W, ntl.getD v 0 ≤ ntl.getD w 0 → v ∈ W)
    {R : List Nat} {s : Lbc.Comps K} (hI : CInv M.graph ntl W d done R s) {y : Nat} (hy : y ∈ R) {x : Nat}
    (hr : M.Reach x y) : x ∈ R → d ≤ ntl.getD x 0 → s.lab.getD x 0 = s.lab.getD y 0 := by
  induction hr using Relation.ReflTransGen.head_induction_on with
  | refl => intro _ _; rfl
  | head hd hr ih =>
    rename_i a b
    intro ha hda
    have h1 := LevelOk.dep_lt h.graph hO (h.dep_iff.2 hd)
    have hb := hI.closed a b (h.dep_iff.2 hd) ha
      (hW b hd.lt.2 (by omega) y (hI.sub y hy) (reach_lev h hO hr))
    rw [hI.same a b (h.dep_iff.2 hd) ha hb]
    exact ih hb (by omega)

theorem leafComp_wp (h : M.WF) (hc : M.Comparable) (hO : LevelOk M.graph L ptr set ntl) {W : List Nat}
    {d done : Nat} (hW : ∀ v ∈ W, v < M.n ∧ d ≤ ntl.getD v 0)
    (hW2 : ∀ v, v < M.n → d ≤ ntl.getD v 0 → ∀ w ∈ W, ntl.getD v 0 ≤ ntl.getD w 0 → v ∈ W)
    (hn : M.n ≤ intMax) (hdn : done < M.n)
    {nodeCost : List K} (hcost : nodeCost.length = M.n) {R : List Nat} {s : Lbc.Comps K}
    (hI : CInv M.graph ntl W d done R s) {leaf : Nat} (hleaf : leaf ∈ W) (hlev : ntl.getD leaf 0 = d) :
    wp (leafComp M ntl d nodeCost leaf (toB s)) (fun r => ∃ s' R', r = toB s' ∧ (∀ v ∈ R, v ∈ R') ∧ leaf ∈ R' ∧
      CInv M.graph ntl W d (done + 1) R' s') := by
  have hml := hI.mLen
  rw [graph_n] at hml
  have hlW := hW leaf hleaf
  unfold leafComp toB
  dsimp only
  rw [rd_getD 0 (by omega), ok_bind, hI.mark leaf hleaf, if_pos hlev]
  by_cases hlR : leaf ∈ R
  · rw [if_pos hlR, if_neg (by decide), wp_ok]
    refine ⟨s, R, rfl, fun _ h => h, hlR, ?_⟩
    have hcn := hI.count
    exact ⟨hI.labLen, hI.mLen, hI.oLen, hI.xiLen, hI.psLen, hI.uniq, hI.sub, hI.closed, hI.mark, hI.above,
      hI.range, hI.same, by omega⟩
  rw [if_neg hlR, if_pos rfl, wp_bind]
  have hlow : ∀ v, v < M.n → (d ≤ ntl.getD v 0 ∧ M.Reach leaf v) → ∀ i ∈ M.graph.col v,
      d ≤ ntl.getD i 0 ∧ M.Reach leaf i := by
    rintro v hv ⟨hd, hr⟩ i hi
    by_cases hvi : v = i
    · rw [← hvi]; exact ⟨hd, hr⟩
    · have hdep : M.graph.Dep v i := ⟨hv, hi, hvi⟩
      have := LevelOk.dep_lt h.graph hO hdep
      exact ⟨by omega, hr.tail (h.dep_iff.1 hdep)⟩
  refine wp_mono (dfsCC_wp (m0 := s.marked) (Pr := fun v => d ≤ ntl.getD v 0 ∧ M.Reach leaf v) h hlow hlW.1 ?_
    ⟨hlW.2, Relation.ReflTransGen.refl⟩ hml hI.xiLen hI.psLen) ?_
  · rw [hI.mark leaf hleaf, if_neg hlR]
  intro D hD
  have hcl := found_clash hI (fun v hv => hv.1) hD
  have heq : ∀ x ∈ D.clash, ∀ y ∈ D.clash, s.lab.getD x 0 = s.lab.getD y 0 := by
    intro x hx y hy
    have hxr := (hD.clash x hx).2.2
    have hyr := (hD.clash y hy).2.2
    rcases comparable_reach h hO hc _ leaf (Nat.le_refl _) x y hxr.2 hyr.2 with hr | hr
    · exact same_of_reach h hO hW2 hI (hcl y hy) hr (hcl x hx) hxr.1
    · exact (same_of_reach h hO hW2 hI (hcl x hx) hr (hcl y hy) hyr.1).symm
  obtain ⟨s', he, R', h1, h2, h3⟩ := wp_iff.1
    (leafRest_wp (g := M.graph) h.graph hO hW hn hdn hcost hI (fun v hv => hv.1) hD)
  suffices hs : leafRest M.n ntl d nodeCost (toB s) D = ok (toB s') by
    unfold toB at hs
    rw [hs, wp_ok]
    exact ⟨s', R', rfl, h1, h2, h3⟩
  unfold Lbc.leafRest at he
  unfold leafRest toB
  dsimp only
  rw [graph_n] at he
  have hcn := hI.count
  have hmu := makeUnique_wp (n := M.n) (B := s.cc) hI.labLen (by omega) (by omega)
    (fun x hx => ⟨(hD.clash x hx).1, hI.range x (hcl x hx)⟩)
  have hmo : wp (makeUnique s.lab D.clash (List.replicate M.n false)) (fun r => r.1.length ≤ 1) := by
    cases hcc : D.clash with
    | nil =>
      exact Nat.zero_le _
    | cons x l =>
      rw [← hcc]
      have hx : x ∈ D.clash := by rw [hcc]; simp
      have hr := hI.range x (hcl x hx)
      refine makeUnique_one (n := M.n) hI.labLen (t := (s.lab.getD x 0).toNat) (by omega) ?_
      intro y hy
      exact ⟨(hD.clash y hy).1, by rw [heq y hy x hx]; omega⟩
  obtain ⟨u, hu, ⟨u1, u2, u3, u4⟩, u5⟩ := wp_iff.1 (wp_and hmu hmo)
  have huq := hI.uniq
  rw [graph_n] at huq
  rw [huq, hu, ok_bind] at he
  rw [huq, hu, ok_bind]
  by_cases hl : u.1.length = 0
  · rw [if_neg (by simpa using hl)] at he
    rw [if_neg (by simpa using hl), if_neg (by omega), Int.toNat_natCast]
    obtain ⟨r, hr, he⟩ := bind_inv he
    cases he
    rw [hr, ok_bind]
    rfl
  · rw [if_pos hl] at he
    rw [if_pos hl]
    obtain ⟨y, hy⟩ : ∃ y, u.1 = [y] := List.length_eq_one_iff.1 (by omega)
    obtain ⟨y', hy', hlab⟩ := u3 (by rw [hy]; simp)
    rw [hy] at hy'
    rw [List.mem_singleton] at hy'
    subst hy'
    have hyn := (hD.clash y' (u1 y' (by rw [hy]; simp))).1
    have hll := hI.labLen
    rw [hy] at he
    rw [hy]
    have hre : Lbc.relabel M.n u.2.1 [y'] s.lab = ok s.lab := by
      unfold Lbc.relabel forEach
      beta_reduce
      rw [rd_getD 0 (by omega), ok_bind, hlab, if_neg (by simp), ok_bind]
      rfl
    rw [hre, ok_bind] at he
    obtain ⟨r, hr, he⟩ := bind_inv he
    cases he
    have hrb : relabel M.n u.2.1 [y'] s.lab = ok s.lab := rfl
    rw [hrb, ok_bind, hr, ok_bind]
    simp

theorem windowComps_wp (h : M.WF) (hcm : M.Comparable) (hO : LevelOk M.graph L ptr set ntl) {d c : Nat}
    (hdc : d < c) (hc : c ≤ L)
    (hn : M.n ≤ intMax) {nodeCost : List K} (hcost : nodeCost.length = M.n) {s : Lbc.Comps K}
    (h0 : CInv M.graph ntl (win ptr set d c) d 0 [] s) :
    wp (windowComps M ptr set ntl d nodeCost (toB s)) (fun r => ∃ s', r = toB s' ∧
      WinLabels M.graph (win ptr set d c) s'.cc s'.lab ∧ s'.cc ≤ (win ptr set d (d + 1)).length ∧
      s'.marked.length = M.n ∧ s'.outCost.length = M.n ∧ s'.xi.length = M.n ∧ s'.ps.length = M.n) := by
  unfold windowComps
  have hlN := hO.lN
  have hpl := hO.ptrLen
  have hwf := h.graph
  rw [graph_n] at hlN
  have hmem : ∀ v, v ∈ win ptr set d c ↔ v < M.n ∧ d ≤ ntl.getD v 0 ∧ ntl.getD v 0 < c :=
    LevelOk.mem_win hO (by omega) hc
  rw [rd_getD 0 (by omega), ok_bind, rd_getD 0 (by omega), ok_bind,
    level_loop hO (a := d) (b := d + 1) (by omega) (by omega)
      (fun leaf s => leafComp M ntl d nodeCost leaf s)]
  have hlen : (win ptr set d (d + 1)).length ≤ M.n := by
    rw [win_length hO (by omega)]
    have := hO.ptr_le (a := d + 1) (by omega)
    rw [graph_n] at this
    omega
  have key := forEach_wp (fun p (r : Comps K) => ∃ s R, r = toB s ∧ (∀ v ∈ p, v ∈ R) ∧
      CInv M.graph ntl (win ptr set d c) d p.length R s)
    (f := fun leaf s => leafComp M ntl d nodeCost leaf s) (win ptr set d (d + 1)) [] (toB s)
    ⟨s, [], rfl, by simp, h0⟩ ?_
  · refine wp_mono key ?_
    rintro r ⟨s', R, rfl, hR, hI⟩
    rw [List.nil_append] at hR hI
    have hall : ∀ k v, v ∈ win ptr set d c → ntl.getD v 0 = d + k → v ∈ R := by
      intro k
      induction k with
      | zero =>
        intro v hv hl
        exact hR v ((leaf_iff hO hdc hc).2 ⟨hv, hl⟩)
      | succ k ih =>
        intro v hv hl
        have hv' := (hmem v).1 hv
        obtain ⟨u, hu, hul⟩ := LevelOk.pred hwf hO hv'.1 (by omega)
        have hum : u ∈ win ptr set d c := (hmem u).2 ⟨(hwf.dep_lt hu).1, by omega, by omega⟩
        exact hI.closed u v hu (ih u hum (by omega)) hv
    have hW : ∀ v ∈ win ptr set d c, v ∈ R := by
      intro v hv
      have hv' := (hmem v).1 hv
      exact hall (ntl.getD v 0 - d) v hv (by omega)
    exact ⟨s', rfl, ⟨hI.labLen, fun v hv => hI.range v (hW v hv),
      fun u v hd hu hv => hI.same u v hd (hW u hu) (hW v hv)⟩, hI.count, hI.mLen, hI.oLen, hI.xiLen, hI.psLen⟩
  · rintro p a q r he ⟨s', R, rfl, hR, hI⟩
    rw [List.nil_append] at he
    have ha : a ∈ win ptr set d (d + 1) := by rw [he]; simp
    obtain ⟨a1, a2⟩ := (leaf_iff hO hdc hc).1 ha
    have hlt : p.length < M.n := by
      have : (win ptr set d (d + 1)).length = p.length + (q.length + 1) := by rw [he]; simp
      omega
    refine wp_mono (leafComp_wp h hcm hO (fun v hv => ⟨((hmem v).1 hv).1, ((hmem v).1 hv).2.1⟩) ?_ hn hlt
      hcost hI a1 a2) ?_
    · intro v hv hdv w hw hvw
      have := (hmem w).1 hw
      exact (hmem v).2 ⟨hv, hdv, by omega⟩
    · rintro r ⟨s'', R', rfl, h1, h2, h3⟩
      refine ⟨s'', R', rfl, ?_, ?_⟩
      · intro v hv
        rcases List.mem_append.1 hv with hv | hv
        · exact h1 v (hR v hv)
        · rw [List.mem_singleton] at hv
          subst hv
          exact h2
      · rw [List.length_append, List.length_singleton]
        exact h3

end
end Verif.Blocked
