import Verif.Proof.ComputeCC
import Verif.Proof.Windows
import Verif.Props.LevelSet

/-! # C13 and C17: components of a window and their packing -/

namespace Verif
open Res hiding ub
open Hdagg LevelSet

/-- Calls of the component computation for growing windows: `(ub, sch)` is a call for the window
ending at level `ub` under the interleaving `sch`; each call starts from the labels and the upper
bound of the previous one (`HDAGG`, hdagg.cpp:694-697 and 774-783). -/
def growCalls {K : Type} (call : Nat → Nat → List Int → List Nat → Res (CCOut K)) :
    Nat → List Int → List (Nat × List Nat) → Res (Nat × List Int)
  | cut, lab, [] => ok (cut, lab)
  | _cut, _lab, (ub, sch) :: rest => do
      let o ← call _cut ub _lab sch
      growCalls call ub o.lab rest

theorem CCOk.report {K : Type} [AddCommMonoid K] {g : Csc} {nodes : List Nat} {cost : List K}
    {o : CCOut K} (h : CCOk g nodes cost o) :
    g.ComponentReport nodes cost o.lab o.partCnt o.partCost o.total := by
  have hg : ∀ v, v < g.n → o.lab[v]? = some (o.lab.getD v 0) := by
    intro v hv
    rw [List.getD_eq_getElem?_getD, List.getElem?_eq_getElem (by rw [h.labels.len]; exact hv)]; rfl
  refine ⟨?_, ?_, ?_, h.comps, h.total⟩
  · intro v hv
    exact ⟨_, hg v (h.labels.sub v hv), (h.labels.label_nonneg hv).1⟩
  · intro v hv hm
    rw [hg v hv, h.labels.frame v hv hm]
  · intro u hu v hv
    rw [hg u (h.labels.sub u hu), hg v (h.labels.sub v hv), Option.some.injEq,
      h.labels.conn u hu v hv]

section
variable {K : Type} [AddCommMonoid K] {g : Csc} {L : Nat} {ptr set ntl : List Nat}

theorem growCalls_spec (hwf : g.WF) (hO : LevelOk g L ptr set ntl) {cost : List K}
    (hc : cost.length = g.n) (debug : Bool) (lb : Nat) :
    ∀ (pre : List (Nat × List Nat)) (cut : Nat) (lab : List Int), lb ≤ cut → cut ≤ L →
      LabState g ptr set lb cut lab →
      (cut :: pre.map (·.1)).Pairwise (· ≤ ·) → (∀ u ∈ pre.map (·.1), lb < u ∧ u ≤ L) →
      wpl (growCalls (fun cut ub lab sch => computeCC debug lb cut ub g.n g.p g.i ptr set ntl lab
        cost sch) cut lab pre) (fun r => LabState g ptr set lb r.1 r.2 ∧ lb ≤ r.1 ∧
          r.1 ∈ cut :: pre.map (·.1)) := by
  intro pre
  induction pre with
  | nil => intro cut lab h1 _ h2 _ _; simp only [growCalls, wpl_ok]; exact ⟨h2, h1, by simp⟩
  | cons x rest ih =>
    obtain ⟨ub, sch⟩ := x
    intro cut lab h1 h1' h2 h3 h4
    simp only [List.map_cons, List.pairwise_cons, List.mem_cons] at h3 h4
    simp only [growCalls, wpl_bind]
    have hub := h4 ub (.inl rfl)
    refine wpl_mono ((computeCC_spec hwf hO h1 (h3.1 ub (.inl rfl)) hub.1 hub.2 h2 hc debug).1 sch)
      ?_
    intro o ho
    refine wpl_mono (ih ub o.lab (by omega) hub.2 ⟨ho.labels.toLabels, ho.labels.frame⟩ ?_ ?_) ?_
    · simp only [List.pairwise_cons]
      exact h3.2
    · intro u hu
      exact h4 u (.inr hu)
    · rintro r ⟨a1, a2, a3⟩
      refine ⟨a1, a2, ?_⟩
      simp only [List.map_cons, List.mem_cons] at a3 ⊢
      tauto

theorem growCalls_complete (hwf : g.WF) (hO : LevelOk g L ptr set ntl) {cost : List K}
    (hc : cost.length = g.n) (debug : Bool) (lb : Nat) :
    ∀ (ubs : List Nat) (cut : Nat) (lab : List Int), lb ≤ cut →
      LabState g ptr set lb cut lab →
      (cut :: ubs).Pairwise (· ≤ ·) → (∀ u ∈ ubs, lb < u ∧ u ≤ L) →
      ∃ pre : List (Nat × List Nat), pre.map (·.1) = ubs ∧
        ∃ r, growCalls (fun cut ub lab sch => computeCC debug lb cut ub g.n g.p g.i ptr set ntl lab
          cost sch) cut lab pre = ok r := by
  intro ubs
  induction ubs with
  | nil => intro cut lab _ _ _ _; exact ⟨[], rfl, _, rfl⟩
  | cons ub rest ih =>
    intro cut lab h1 h2 h3 h4
    simp only [List.pairwise_cons, List.mem_cons] at h3 h4
    have hub := h4 ub (.inl rfl)
    have hspec := computeCC_spec hwf hO h1 (h3.1 ub (.inl rfl)) hub.1 hub.2 h2 hc debug
    obtain ⟨sch, hs⟩ := hspec.2
    have h5 := hspec.1 sch
    cases ho : computeCC debug lb cut ub g.n g.p g.i ptr set ntl lab cost sch with
    | ok o =>
      rw [ho] at h5
      simp only [wpl_ok] at h5
      obtain ⟨pre, e1, r, e2⟩ := ih ub o.lab (by omega) ⟨h5.labels.toLabels, h5.labels.frame⟩
        (by simp only [List.pairwise_cons]; exact h3.2) (fun u hu => h4 u (.inr hu))
      refine ⟨(ub, sch) :: pre, by simp [e1], r, ?_⟩
      simp only [growCalls, ho, ok_bind]
      exact e2
    | nofuel => exact absurd ho hs
    | ub => rw [ho] at h5; exact h5.elim
    | exn => rw [ho] at h5; exact h5.elim

/-- **C13.** Let the level set of an acyclic graph be computed.  After any calls of `computeCC` for
windows `lb .. u₁-1`, `lb .. u₂-1`, ... with `lb < u₁ ≤ u₂ ≤ ...`, each starting from the labels of
the one before, the call for the window `lb .. ub-1` reports exactly the connected components of
that window, their number and costs - under every interleaving, in builds with and without
assertions. -/
theorem C13_computeCC_exact {K : Type} [AddCommMonoid K] {g : Csc} (hwf : g.WF) (hd : g.OneDiag)
    {o : LevelSet.Out} (ho : buildLevelSet g.n g.p g.i = ok o) (h0 : 0 ≤ o.ret) {cost : List K}
    (hc : cost.length = g.n) (debug : Bool) {lb ub : Nat} (hlb : lb < ub) (hub : ub ≤ o.ret.toNat)
    (pre : List (Nat × List Nat)) (hpre : (pre.map (·.1) ++ [ub]).Pairwise (· ≤ ·))
    (hpre' : ∀ u ∈ pre.map (·.1), lb < u) (sch : List Nat) :
    wpl (do
      let (cut, lab) ← growCalls (fun cut ub lab sch => computeCC debug lb cut ub g.n g.p g.i
        o.levelPtr o.levelSet o.nodeToLevel lab cost sch) lb (List.replicate g.n (-1)) pre
      computeCC debug lb cut ub g.n g.p g.i o.levelPtr o.levelSet o.nodeToLevel lab cost sch)
      (fun r => g.ComponentReport (levelWindow o.levelPtr o.levelSet lb ub) cost r.lab r.partCnt
        r.partCost r.total) := by
  obtain ⟨o', ho', h⟩ := buildLevelSet_ok hwf hd
  rw [ho] at ho'
  cases ho'
  rcases h with ⟨L, hL, hO⟩ | ⟨hr, _⟩
  · rw [hL, Int.toNat_natCast] at hub
    rw [List.pairwise_append] at hpre
    rw [wpl_bind]
    refine wpl_mono (growCalls_spec hwf hO hc debug lb pre lb _ (le_refl _) (by omega)
      (LabState.init o.levelPtr o.levelSet lb) ?_ ?_) ?_
    · rw [List.pairwise_cons]
      exact ⟨fun u hu => le_of_lt (hpre' u hu), hpre.1⟩
    · intro u hu
      have := hpre.2.2 u hu ub (by simp)
      exact ⟨hpre' u hu, by omega⟩
    · rintro ⟨cut, lab⟩ ⟨a1, a2, a3⟩
      have hcut : cut ≤ ub := by
        rcases List.mem_cons.1 a3 with h | h
        · simp only at h; omega
        · exact hpre.2.2 cut h ub (by simp)
      refine wpl_mono ((computeCC_spec hwf hO a2 hcut hlb hub a1 hc debug).1 sch) ?_
      intro r hr
      exact CCOk.report hr
  · omega

/-- **C13 (completeness).** For every such sequence of windows there are interleavings under which
all calls finish. -/
theorem C13_computeCC_finishes {K : Type} [AddCommMonoid K] {g : Csc} (hwf : g.WF) (hd : g.OneDiag)
    {o : LevelSet.Out} (ho : buildLevelSet g.n g.p g.i = ok o) (h0 : 0 ≤ o.ret) {cost : List K}
    (hc : cost.length = g.n) (debug : Bool) {lb : Nat} (ubs : List Nat)
    (hubs : ubs.Pairwise (· ≤ ·)) (hb : ∀ u ∈ ubs, lb < u ∧ u ≤ o.ret.toNat) :
    ∃ pre : List (Nat × List Nat), pre.map (·.1) = ubs ∧
      ∃ r, growCalls (fun cut ub lab sch => computeCC debug lb cut ub g.n g.p g.i
        o.levelPtr o.levelSet o.nodeToLevel lab cost sch) lb (List.replicate g.n (-1)) pre = ok r := by
  obtain ⟨o', ho', h⟩ := buildLevelSet_ok hwf hd
  rw [ho] at ho'
  cases ho'
  rcases h with ⟨L, hL, hO⟩ | ⟨hr, _⟩
  · rw [hL, Int.toNat_natCast] at hb
    refine growCalls_complete hwf hO hc debug lb ubs lb _ (le_refl _)
      (LabState.init o.levelPtr o.levelSet lb) ?_ hb
    rw [List.pairwise_cons]
    exact ⟨fun u hu => le_of_lt (hb u hu).1, hubs⟩
  · omega

end

/-- **C17.** For positive component costs and exact cost arithmetic the packing loop ends without
out-of-bounds access or failed assertion; the components of core `t` are
`chunk[t] .. chunk[t+1]-1`, every component belongs to exactly one core (`ChunkOk`: boundaries from
`0` to the number of components, never decreasing), and `cost[t]` is the sum of their costs. -/
theorem C17_packing_covers_components {K : Type} [AddCommGroup K] [LinearOrder K]
    [IsOrderedAddMonoid K] {rdiv : K → Nat → K} (hr : RDivOk rdiv) (debug : Bool) {cores cnt : Nat}
    (hcores : 1 ≤ cores) {partCost : List K} (hlen : cnt ≤ partCost.length)
    (hpos : ∀ q w, q < cnt → partCost[q]? = some w → 0 < w) {chunk : List Nat}
    (hcl : chunk.length = cores + 1) (h0 : chunk[0]? = some 0) :
    ∃ chunk' cost, pack debug rdiv cores cnt partCost (partCost.take cnt).sum chunk
        = ok (chunk', cost) ∧ ChunkOk cores cnt chunk' ∧ cost.length = cores ∧
      ∀ t a b, t < cores → chunk'[t]? = some a → chunk'[t + 1]? = some b →
        cost[t]? = some ((partCost.drop a).take (b - a)).sum := by
  obtain ⟨⟨chunk', cost⟩, h1, h2⟩ := wp_iff.1 (pack_spec debug hr hcores hlen
    (fun q hq => hpos q _ hq (by
      rw [List.getD_eq_getElem?_getD, List.getElem?_eq_getElem (by omega)]; rfl))
    (total := (partCost.take cnt).sum) (by rw [S, slice_zero]) hcl
    (by rw [List.getD_eq_getElem?_getD, h0]; rfl))
  refine ⟨chunk', cost, h1, h2.chunkOk, h2.klen, ?_⟩
  intro t a b ht ha hb
  have h3 := h2.costs t ht
  simp only [List.getD_eq_getElem?_getD, ha, hb, Option.getD_some] at h3
  have h4 := h2.klen
  simp only at h4
  rw [List.getElem?_eq_getElem (by omega), Option.getD_some] at h3
  rw [List.getElem?_eq_getElem (by omega), h3]
  rfl

/-- Finding: with all costs zero (they are the caller's input) the loop drops every component. -/
theorem C17_zero_costs_lose_components :
    pack (K := Int) false (fun r k => r / k) 2 2 [0, 0] 0 [0, 0, 0] = ok ([0, 0, 0], [0, 0]) := by
  decide

/-! ### Non-vacuity -/

/-- Division rounding up, an instance of `RDivOk`. -/
def ceilDiv (r : Int) (k : Nat) : Int := -((-r) / k)

theorem ceilDiv_ok : RDivOk ceilDiv := by
  refine ⟨?_, ?_⟩
  · intro r k hr hk
    unfold ceilDiv
    have : (-r) / (k : Int) < 0 := Int.ediv_neg_of_neg_of_pos (by omega) (by omega)
    omega
  · intro r; simp [ceilDiv]

/-- Exact division in a linearly ordered field is another instance. -/
theorem fieldDiv_ok {K : Type} [Field K] [LinearOrder K] [IsStrictOrderedRing K] :
    RDivOk (fun (r : K) k => r / k) :=
  ⟨fun _ _ hr hk => div_pos hr (by exact_mod_cast hk), fun r => by simp⟩

/-- Four components on two cores. -/
example : pack false ceilDiv 2 4 [1, 5, 2, 2, 0] (([1, 5, 2, 2, 0] : List Int).take 4).sum [0, 0, 0]
    = ok ([0, 2, 4], [6, 4]) := by decide

/-- Windows of `exGraph`: level 0 alone (two components), then levels 0-1 (one component of
cost 6). -/
example : ∃ o, buildLevelSet exGraph.n exGraph.p exGraph.i = ok o ∧ o.ret = 3 ∧
    computeCC false 0 0 1 exGraph.n exGraph.p exGraph.i o.levelPtr o.levelSet o.nodeToLevel
      [-1, -1, -1, -1] ([1, 2, 3, 4] : List Int) []
      = ok ⟨[0, 1, -1, -1], 2, [1, 2, 0, 0], 3⟩ ∧
    ∃ sch, computeCC true 0 1 2 exGraph.n exGraph.p exGraph.i o.levelPtr o.levelSet o.nodeToLevel
      [0, 1, -1, -1] ([1, 2, 3, 4] : List Int) sch
      = ok ⟨[0, 0, 0, -1], 1, [6, 0, 0, 0], 6⟩ :=
  ⟨_, rfl, by decide, by decide, (List.range 150).map (· % 3), by decide +kernel⟩

end Verif
