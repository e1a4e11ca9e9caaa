import Verif.Proof.CCSpec

/-!
# C10-C12: concurrent connected components of a window of levels

Vocabulary: `Csc.Connected` (Verif/Spec/Comp.lean).  `parallelCC … sch` is the run with
the interleaving `sch`; `nofuel` means that `sch` ends before the computation does.
-/

namespace Verif
open Res CC

/-- `nodes` lists the nodes with level in `lb .. ub-1`, each once. -/
def WindowNodes (g : Csc) (lvl : List Nat) (lb ub : Nat) (nodes : List Nat) : Prop :=
  lvl.length = g.n ∧ nodes.Nodup ∧
    ∀ v, v ∈ nodes ↔ ∃ l, lvl[v]? = some l ∧ lb ≤ l ∧ l < ub

theorem WindowNodes.window {g : Csc} {lvl : List Nat} {lb ub : Nat} {nodes : List Nat}
    (h : WindowNodes g lvl lb ub nodes) : Window g lvl lb ub nodes := by
  refine ⟨h.1, h.2.1, fun v => ?_⟩
  rw [h.2.2]
  constructor
  · rintro ⟨l, h1, h2⟩
    have hv : v < g.n := by rw [← h.1]; exact (List.getElem?_eq_some_iff.1 h1).1
    rw [List.getD_eq_getElem?_getD, h1]
    exact ⟨hv, h2⟩
  · rintro ⟨h1, h2⟩
    rw [← h.1] at h1
    rw [List.getD_eq_getElem?_getD, List.getElem?_eq_getElem h1] at h2
    exact ⟨_, List.getElem?_eq_getElem h1, h2⟩

theorem getElem?_eq_of_lt {lab : List Int} {u : Nat} (h : u < lab.length) :
    lab[u]? = some (lab.getD u 0) := by
  rw [List.getD_eq_getElem?_getD, List.getElem?_eq_getElem h]; rfl

/-- **C10.** Whatever the interleaving of the loads and stores: a finished `parallel_cc` gives two
nodes of the window the same label iff they are connected inside the window, and
leaves all other labels alone. -/
theorem C10_components_exact {g : Csc} (hwf : g.WF) {lvl : List Nat} {lb ub : Nat}
    {nodes : List Nat} (hW : WindowNodes g lvl lb ub nodes) {lab : List Int}
    (hl : lab.length = g.n) (sch : List Nat) :
    parallelCC g.p g.i lb ub lvl nodes lab sch = nofuel ∨
    ∃ lab', parallelCC g.p g.i lb ub lvl nodes lab sch = ok lab' ∧
      (∀ u ∈ nodes, ∀ v ∈ nodes, lab'[u]? = lab'[v]? ↔ g.Connected (· ∈ nodes) u v) ∧
      ∀ v, v ∉ nodes → lab'[v]? = lab[v]? := by
  have hW := hW.window
  rcases wpl_iff.1 ((parallelCC_spec hwf hW hl).1 sch) with h | ⟨lab', h, hL, hF⟩
  · exact .inl h
  · refine .inr ⟨lab', h, ?_, ?_⟩
    · intro u hu v hv
      have hul : u < lab'.length := by rw [hL.len]; exact ((hW.mem u).1 hu).1
      have hvl : v < lab'.length := by rw [hL.len]; exact ((hW.mem v).1 hv).1
      rw [getElem?_eq_of_lt hul, getElem?_eq_of_lt hvl, Option.some.injEq]
      exact hL.conn u hu v hv
    · intro v hv
      by_cases hvn : v < g.n
      · rw [getElem?_eq_of_lt (by rw [hL.len]; exact hvn), getElem?_eq_of_lt (by omega), hF v hv]
      · rw [List.getElem?_eq_none (by rw [hL.len]; omega), List.getElem?_eq_none (by omega)]

/-- **C11.** From the initial state of `parallel_cc` there is no infinite execution, whatever thread
takes the next step; and as long as the computation is not finished, some thread can
take a step.  Some interleaving finishes. -/
theorem C11_components_terminate {g : Csc} (hwf : g.WF) {lvl : List Nat} {lb ub : Nat}
    {nodes : List Nat} (hW : WindowNodes g lvl lb ub nodes) {lab : List Int}
    (hl : lab.length = g.n) :
    ∃ e, mkEnv g.p g.i lvl lb ub nodes = ok e ∧
      (¬ ∃ f : Nat → State, f 0 = ccStart nodes lab ∧ ∀ i, Step e (f i) (f (i + 1))) ∧
      (∀ s, Relation.ReflTransGen (Step e) (ccStart nodes lab) s → s.phase ≠ .done →
        ∃ s', Step e s s') ∧
      ∃ sch lab', parallelCC g.p g.i lb ub lvl nodes lab sch = ok lab' := by
  have hW := hW.window
  have hok := mkSetup_ok hwf hW
  have hI := Setup.Inv.init (ccStart_inv (lvl := lvl) (lb := lb) (ub := ub) (nodes := nodes) hl)
  refine ⟨_, mkEnv_eq hwf hW, ?_, ?_, (parallelCC_spec hwf hW hl).2⟩
  · rintro ⟨f, h0, hf⟩
    have hacc := Setup.step_acc hok _ _ hI
    rw [← h0] at hacc
    have key : ∀ s, Acc (fun b a => Step (mkSetup g lvl lb ub nodes).e a b) s →
        ∀ i, f i = s → False := by
      intro s hs
      induction hs with
      | intro s _ ih =>
        intro i hi
        exact ih (f (i + 1)) (by have := hf i; rwa [hi] at this) (i + 1) rfl
    exact key _ hacc 0 rfl
  · intro s hs hd
    obtain ⟨μ, hμ⟩ := Setup.reach_inv hok hI hs
    obtain ⟨k, hk⟩ := Setup.exists_enabled hd
    obtain ⟨s', h1, _⟩ := wp_iff.1 (Setup.step_spec hok hμ k)
    exact ⟨s', k, hk, h1⟩

/-- **C12.** In every reachable state of `parallel_cc` after the initial labelling, the label of the
node at position `k` of the window is a position `≤ k`; in every reachable state
no step of any thread has undefined behaviour. -/
theorem C12_labels_in_range {g : Csc} (hwf : g.WF) {lvl : List Nat} {lb ub : Nat}
    {nodes : List Nat} (hW : WindowNodes g lvl lb ub nodes) {lab : List Int}
    (hl : lab.length = g.n) :
    ∃ e, mkEnv g.p g.i lvl lb ub nodes = ok e ∧
      ∀ s, Relation.ReflTransGen (Step e) (ccStart nodes lab) s →
        (∀ k, ∃ s', step e k s = ok s') ∧
        (s.phase ≠ .init → ∀ k u, nodes[k]? = some u →
          ∃ l : Nat, s.lab[u]? = some (l : Int) ∧ l ≤ k) := by
  have hW := hW.window
  have hok := mkSetup_ok hwf hW
  have hI := Setup.Inv.init (ccStart_inv (lvl := lvl) (lb := lb) (ub := ub) (nodes := nodes) hl)
  refine ⟨_, mkEnv_eq hwf hW, fun s hs => ?_⟩
  obtain ⟨μ, hμ⟩ := Setup.reach_inv hok hI hs
  refine ⟨fun k => ?_, fun hne k u hu => ?_⟩
  · obtain ⟨s', h1, _⟩ := wp_iff.1 (Setup.step_spec hok hμ k)
    exact ⟨s', h1⟩
  · have hlok : (mkSetup g lvl lb ub nodes).LabOk s.lab := by
      cases hμ with
      | init h => exact absurd h.phase hne
      | hook h => exact h.ok
      | jump h => exact h.ok
      | done h => exact h.ok
    have hk : k < nodes.length := (List.getElem?_eq_some_iff.1 hu).1
    have hg := hlok.good k hk
    have hnd : (mkSetup g lvl lb ub nodes).nd k = u := by simp [Setup.nd, mkSetup, hu]
    have hlt : u < s.lab.length := by
      rw [hlok.len]; exact ((hW.mem u).1 (List.mem_of_getElem? hu)).1
    refine ⟨(s.lab.getD u 0).toNat, ?_, ?_⟩
    · rw [getElem?_eq_of_lt hlt]
      have h1 := hg.1
      unfold Setup.L at h1
      rw [hnd] at h1
      congr 1
      omega
    · have h1 := hg.2.1
      unfold Setup.L at h1
      rw [hnd] at h1
      omega

/-! ### Non-vacuity -/

/-- Two components `{0, 2, 3}` and `{1, 4}` with levels `0 0 1 1 1`, dependences `0→2`, `0→3`,
`1→4`; node 5 (level 2) depends on 3 and 4 and is outside of the window. -/
def exWin : Csc := ⟨6, [0, 3, 5, 6, 8, 10, 11], [0, 2, 3, 1, 4, 2, 3, 5, 4, 5, 5]⟩

example : exWin.WF :=
  ⟨by decide, by decide, by show ∀ u, u < 6 → _; decide, by decide, by
    show ∀ u, u < 6 → ∀ v ∈ exWin.col u, v < 6
    decide⟩

example : WindowNodes exWin [0, 0, 1, 1, 1, 2] 0 2 [0, 1, 2, 3, 4] := by
  refine ⟨rfl, by decide, fun v => ?_⟩
  by_cases h : v < 6
  · have : v = 0 ∨ v = 1 ∨ v = 2 ∨ v = 3 ∨ v = 4 ∨ v = 5 := by omega
    rcases this with rfl | rfl | rfl | rfl | rfl | rfl <;> simp
  · have e : ([0, 0, 1, 1, 1, 2] : List Nat)[v]? = none :=
      List.getElem?_eq_none (by simp; omega)
    rw [e]
    simp
    omega

/-- A run with an interleaving of all threads: labels 0 and 1. -/
example : parallelCC exWin.p exWin.i 0 2 [0, 0, 1, 1, 1, 2] [0, 1, 2, 3, 4] (List.replicate 6 (-1))
    ((List.replicate 60 [0, 1, 2, 3, 4]).flatten) = ok [0, 1, 0, 0, 1, -1] := by
  decide +kernel

end Verif
