import Verif.Proof.Cliques
import Verif.Proof.Paths
import Verif.Spec.Reduce

/-!
# Chains, marked edges and the result of `partialSparsification`
-/

namespace Verif.Sparsify
open Res Relation

/-! ### Graphs given by their columns -/

section Cols
variable (c : Nat → List Nat)

/-- The first entry of column `k` if the columns are stored one after the other. -/
def off (k : Nat) : Nat := ((List.range k).flatMap c).length

theorem off_zero : off c 0 = 0 := by simp [off]

theorem range_succ_flatMap (k : Nat) :
    (List.range (k + 1)).flatMap c = (List.range k).flatMap c ++ c k := by
  rw [List.range_succ, List.flatMap_append]; simp

theorem off_succ (k : Nat) : off c (k + 1) = off c k + (c k).length := by
  unfold off
  rw [range_succ_flatMap, List.length_append]

theorem off_mono {a b : Nat} (h : a ≤ b) : off c a ≤ off c b := by
  induction h with
  | refl => exact le_refl _
  | step _ ih => rw [Nat.succ_eq_add_one, off_succ]; omega

theorem flatMap_col {n k : Nat} (h : k < n) :
    (((List.range n).flatMap c).drop (off c k)).take (off c (k + 1) - off c k) = c k := by
  obtain ⟨d, rfl⟩ : ∃ d, n = k + 1 + d := ⟨n - (k + 1), by omega⟩
  rw [List.range_add, List.flatMap_append, range_succ_flatMap, List.append_assoc]
  unfold off
  rw [List.drop_left, range_succ_flatMap, List.length_append, Nat.add_sub_cancel_left, List.take_left]

variable {c}

/-- A graph stored in this way. -/
structure Stored (c : Nat → List Nat) (h : Csc) : Prop where
  plen : h.p.length = h.n + 1
  ptr : ∀ k, k ≤ h.n → h.ptr k = off c k
  set : h.i = (List.range h.n).flatMap c

theorem Stored.col {h : Csc} (s : Stored c h) {k : Nat} (hk : k < h.n) : h.col k = c k := by
  unfold Csc.col
  rw [s.ptr k (by omega), s.ptr (k + 1) hk, s.set, flatMap_col c hk]

theorem Stored.exact {h : Csc} (s : Stored c h) : h.i.length = h.ptr h.n := by
  rw [s.ptr _ (le_refl _), s.set]; rfl

theorem Stored.wf {h : Csc} (s : Stored c h) (hr : ∀ k, k < h.n → ∀ v ∈ c k, v < h.n) : h.WF := by
  refine ⟨s.plen, ?_, ?_, ?_, ?_⟩
  · rw [s.ptr 0 (by omega), off_zero]
  · intro u hu
    rw [s.ptr u (by omega), s.ptr (u + 1) hu]
    exact off_mono c (by omega)
  · rw [s.exact]
  · intro u hu v hv
    rw [s.col hu] at hv
    exact hr u hu v hv

end Cols

variable {g : Csc}

/-! ### Cliques become chains -/

/-- The columns after the cliques have been replaced by chains. -/
noncomputable def chainCol (g : Csc) (cp : List Nat) (j : Nat) : List Nat :=
  open Classical in
  if ∃ k, k + 1 < cp.length ∧ cp.getD k 0 ≤ j ∧ j + 1 < cp.getD (k + 1) 0 then [j, j + 1]
  else g.col j

theorem chainCol_mid {cp : List Nat} {k j : Nat} (hk : k + 1 < cp.length) (h1 : cp.getD k 0 ≤ j)
    (h2 : j + 1 < cp.getD (k + 1) 0) : chainCol g cp j = [j, j + 1] := by
  unfold chainCol
  rw [if_pos ⟨k, hk, h1, h2⟩]

theorem BlocksOk.mono {cp : List Nat} {n : Nat} (h : BlocksOk g cp n) :
    ∀ {a b : Nat}, a ≤ b → b < cp.length → cp.getD a 0 ≤ cp.getD b 0 := by
  intro a b hab
  induction hab with
  | refl => intro _; exact le_refl _
  | @step m _ ih =>
    intro hb
    have h1 := h.lt m hb
    have h2 := ih (by omega)
    rw [Nat.succ_eq_add_one]; omega

theorem chainCol_last {cp : List Nat} {n : Nat} (h : BlocksOk g cp n) {k : Nat}
    (hk : k + 1 < cp.length) :
    chainCol g cp (cp.getD (k + 1) 0 - 1) = g.col (cp.getD (k + 1) 0 - 1) := by
  unfold chainCol
  rw [if_neg]
  rintro ⟨m, hm, h1, h2⟩
  have h3 := h.lt k hk
  rcases Nat.lt_trichotomy m k with h4 | h4 | h4
  · have := h.mono (a := m + 1) (b := k) (by omega) (by omega)
    omega
  · subst h4; omega
  · have := h.mono (a := k + 1) (b := m) (by omega) (by omega)
    omega

/-- The first `m` columns are stored. -/
structure Part (c : Nat → List Nat) (n m : Nat) (e : Edges) : Prop where
  plen : e.ptr.length = n + 1
  ptr : ∀ k, k < m → e.ptr.getD k 0 = off c k
  set : e.set = (List.range m).flatMap c
  cnt : e.cnt = e.set.length

theorem Part.cnt_eq {c : Nat → List Nat} {n m : Nat} {e : Edges} (h : Part c n m e) :
    e.cnt = off c m := by rw [h.cnt, h.set]; rfl

/-- Storing one more column. -/
theorem Part.step {c : Nat → List Nat} {n m : Nat} {e : Edges} (h : Part c n m e) (hm : m ≤ n)
    {v : List Nat} (hv : c m = v) :
    Part c n (m + 1) ⟨e.ptr.set m e.cnt, e.set ++ v, e.cnt + v.length⟩ := by
  refine ⟨by simpa using h.plen, ?_, ?_, ?_⟩
  · intro k hk
    dsimp only
    rw [getD_set]
    by_cases hmk : m = k
    · rw [if_pos ⟨hmk, by have := h.plen; omega⟩, h.cnt_eq, hmk]
    · rw [if_neg (fun h => hmk h.1)]
      exact h.ptr k (by omega)
  · dsimp only
    rw [range_succ_flatMap, h.set, hv]
  · dsimp only
    rw [List.length_append, h.cnt]

theorem pushCol_eq (hg : g.WF) {u : Nat} (hu : u < g.n) (ptr set : List Nat) (cnt : Nat) :
    forRange (g.ptr u) (g.ptr (u + 1)) (fun j (s : Edges) => do
      let v ← rd g.i j
      ok ⟨s.ptr, s.set ++ [v], s.cnt + 1⟩) ⟨ptr, set, cnt⟩
      = ok ⟨ptr, set ++ g.col u, cnt + (g.col u).length⟩ := by
  have hm := hg.mono u hu
  have hb := hg.ptr_le (a := u + 1) hu
  have h : wp (forRange (g.ptr u) (g.ptr (u + 1)) (fun j (s : Edges) => do
      let v ← rd g.i j
      ok ⟨s.ptr, s.set ++ [v], s.cnt + 1⟩) ⟨ptr, set, cnt⟩) fun e =>
      e = ⟨ptr, set ++ g.col u, cnt + (g.col u).length⟩ := by
    refine forRange_wp' (fun j (s : Edges) => s = ⟨ptr, set ++ slice g.i (g.ptr u) j,
      cnt + (j - g.ptr u)⟩) hm (by simp [slice_self]) ?_ ?_
    · rintro j s hj1 hj2 rfl
      rw [rd_getD 0 (by omega), ok_bind, wp_ok]
      dsimp only
      rw [slice_succ hj1 (getElem?_getD 0 (by omega)), ← List.append_assoc]
      congr 1; omega
    · rintro s rfl
      rw [hg.col_length hu]; rfl
  obtain ⟨e, h1, h2⟩ := wp_iff.1 h
  rw [h1, h2]

theorem noClique_wp (hg : g.WF) {cp : List Nat} (hB : BlocksOk g cp g.n) :
    wp (noClique g.n g.p g.i cp) fun e =>
      Stored (chainCol g cp) ⟨g.n, e.ptr, e.set⟩ ∧ e.cnt = e.set.length := by
  unfold noClique
  rw [wp_bind]
  have hlen := hB.len
  refine forRange_wp' (fun i (e : Edges) => Part (chainCol g cp) g.n (cp.getD i 0) e)
    (Nat.zero_le _) ?_ ?_ ?_
  · refine ⟨by simp, ?_, ?_, rfl⟩
    · intro k hk; rw [hB.first] at hk; omega
    · rw [hB.first]; rfl
  · intro i e _ hi ih
    have hlt := hB.lt i (by omega)
    have hle := (hB.run i (by omega)).le
    rw [rd_getD 0 (by omega), ok_bind, rd_getD 0 (by omega), ok_bind, wp_bind]
    refine forRange_wp' (fun j (e : Edges) => Part (chainCol g cp) g.n j e) (by omega) ih ?_ ?_
    · intro j e hj1 hj2 hp
      rw [wr_eq (by rw [hp.plen]; omega), ok_bind, wp_ok]
      exact hp.step (by omega) (chainCol_mid (by omega) hj1 (by omega))
    · intro e hp
      have hw : wrZ e.ptr ((cp.getD (i + 1) 0 : Int) - 1) e.cnt
          = ok (e.ptr.set (cp.getD (i + 1) 0 - 1) e.cnt) := by
        unfold wrZ
        rw [if_neg (by omega)]
        rw [show ((cp.getD (i + 1) 0 : Int) - 1).toNat = cp.getD (i + 1) 0 - 1 by omega]
        exact wr_eq (by rw [hp.plen]; omega)
      rw [hw, ok_bind, hg.rd_p (by omega), ok_bind, hg.rd_p (by omega), ok_bind]
      obtain ⟨b, hb⟩ : ∃ b, cp.getD (i + 1) 0 = b + 1 := ⟨cp.getD (i + 1) 0 - 1, by omega⟩
      have hlast := chainCol_last hB (k := i) (by omega)
      rw [hb, Nat.add_sub_cancel] at hp hlast ⊢
      rw [pushCol_eq hg (by omega), wp_ok]
      exact hp.step (by omega) hlast
  · intro e hp
    rw [hB.last] at hp
    rw [wr_eq (by rw [hp.plen]; omega), ok_bind, wp_ok]
    refine ⟨⟨by simpa using hp.plen, ?_, hp.set⟩, hp.cnt⟩
    intro k hk
    show (e.ptr.set g.n e.cnt).getD k 0 = _
    rw [getD_set]
    by_cases hnk : g.n = k
    · rw [if_pos ⟨hnk, by rw [hp.plen]; omega⟩, hp.cnt_eq, hnk]
    · rw [if_neg (fun h => hnk h.1)]
      exact hp.ptr k (by have : k ≤ g.n := hk; omega)

/-- A column of the graph after the replacement: unchanged or two consecutive nodes of a clique. -/
theorem chainCol_cases (hf : g.DiagFirst) {cp : List Nat} (hB : BlocksOk g cp g.n) {j : Nat}
    (hj : j < g.n) : chainCol g cp j = g.col j ∨
      (chainCol g cp j = [j, j + 1] ∧ j + 1 < g.n ∧ g.col j = j :: g.col (j + 1)) := by
  by_cases h : ∃ k, k + 1 < cp.length ∧ cp.getD k 0 ≤ j ∧ j + 1 < cp.getD (k + 1) 0
  · right
    obtain ⟨k, hk, h1, h2⟩ := h
    have hr := hB.run k hk
    have hle := hr.le
    refine ⟨chainCol_mid hk h1 h2, by omega, ?_⟩
    have e1 := hr.tail j h1 (by omega)
    have e2 := hr.tail (j + 1) (by omega) h2
    have e3 : g.col (j + 1) = (g.col j).drop 1 := by
      rw [e1, e2, List.drop_drop]; congr 1; omega
    have := hf j hj
    rw [e3]
    cases hc : g.col j with
    | nil => rw [hc] at this; cases this
    | cons a l =>
      rw [hc] at this
      simp only [List.head?_cons, Option.some.injEq] at this
      rw [this]; rfl
  · left
    unfold chainCol
    rw [if_neg h]

/-- A graph whose columns are unchanged or shortened to the next node of a clique. -/
structure Thin (g h : Csc) : Prop where
  n : h.n = g.n
  wf : h.WF
  exact : h.i.length = h.ptr h.n
  cols : ∀ j, j < g.n → h.col j = g.col j ∨
    (h.col j = [j, j + 1] ∧ j + 1 < g.n ∧ g.col j = j :: g.col (j + 1))

theorem Thin.of_stored (hg : g.WF) (hf : g.DiagFirst) {cp : List Nat} (hB : BlocksOk g cp g.n)
    {h : Csc} (hn : h.n = g.n) (hs : Stored (chainCol g cp) h) : Thin g h := by
  have hcol := fun j (hj : j < g.n) => chainCol_cases hf hB hj
  refine ⟨hn, hs.wf ?_, hs.exact, ?_⟩
  · intro k hk v hv
    rw [hn] at hk ⊢
    rcases hcol k hk with h1 | ⟨h1, h2, _⟩
    · rw [h1] at hv; exact hg.range k hk v hv
    · rw [h1] at hv
      simp at hv
      omega
  · intro j hj
    rw [hs.col (by omega)]
    exact hcol j hj

theorem Thin.refl (hg : g.WF) (he : g.i.length = g.ptr g.n) : Thin g g :=
  ⟨rfl, hg, he, fun _ _ => Or.inl rfl⟩

theorem Thin.sub (hf : g.DiagFirst) {h : Csc} (t : Thin g h) {j : Nat} (hj : j < g.n) :
    (h.col j).Sublist (g.col j) := by
  rcases t.cols j hj with h1 | ⟨h1, h2, h3⟩
  · rw [h1]
  · rw [h1, h3]
    refine List.Sublist.cons_cons _ ?_
    have := hf (j + 1) h2
    cases hc : g.col (j + 1) with
    | nil => rw [hc] at this; cases this
    | cons a l =>
      rw [hc] at this
      simp only [List.head?_cons, Option.some.injEq] at this
      rw [this]
      exact List.Sublist.cons_cons _ (List.nil_sublist _)

theorem Thin.diagFirst (hf : g.DiagFirst) {h : Csc} (t : Thin g h) : h.DiagFirst := by
  intro u hu
  rw [t.n] at hu
  rcases t.cols u hu with h1 | ⟨h1, _⟩
  · rw [h1]; exact hf u hu
  · rw [h1]; rfl

theorem Thin.oneDiag (hd : g.OneDiag) {h : Csc} (t : Thin g h) : h.OneDiag := by
  intro u hu
  rw [t.n] at hu
  rcases t.cols u hu with h1 | ⟨h1, _⟩
  · rw [h1]; exact hd u hu
  · rw [h1]; simp

theorem Thin.sorted (hf : g.DiagFirst) (hs : g.Sorted) {h : Csc} (t : Thin g h) : h.Sorted := by
  intro u hu
  rw [t.n] at hu
  exact List.Pairwise.sublist (t.sub hf hu) (hs u hu)

theorem Thin.dep (hf : g.DiagFirst) {h : Csc} (t : Thin g h) {u v : Nat} (hd : h.Dep u v) :
    g.Dep u v :=
  ⟨t.n ▸ hd.1, (t.sub hf (t.n ▸ hd.1)).subset hd.2.1, hd.2.2⟩

theorem Thin.reach {h : Csc} (t : Thin g h) :
    ∀ d u v, g.n ≤ u + d → g.Dep u v → TransGen h.Dep u v := by
  intro d
  induction d with
  | zero => intro u v h1 hd; have := hd.1; omega
  | succ d ih =>
    intro u v h1 hd
    obtain ⟨hu, hv, huv⟩ := hd
    rcases t.cols u hu with h2 | ⟨h2, h3, h4⟩
    · exact TransGen.single ⟨by rw [t.n]; exact hu, by rw [h2]; exact hv, huv⟩
    · have hnext : h.Dep u (u + 1) := ⟨by rw [t.n]; exact hu, by rw [h2]; simp, by omega⟩
      rw [h4, List.mem_cons] at hv
      rcases hv with hv | hv
      · exact absurd hv.symm huv
      · by_cases hv1 : v = u + 1
        · rw [hv1]; exact TransGen.single hnext
        · exact TransGen.head hnext (ih (u + 1) v (by omega) ⟨h3, hv, fun e => hv1 e.symm⟩)

/-! ### Marked edges -/

/-- The entries after the first one are the dependences. -/
theorem dep_iff (hg : g.WF) (hf : g.DiagFirst) (hd : g.OneDiag) {u v : Nat} (hu : u < g.n) :
    g.Dep u v ↔ ∃ q, g.ptr u < q ∧ q < g.ptr (u + 1) ∧ g.idx q = v := by
  have hlen := hg.col_length hu
  have hpos := col_ne_nil hf hu
  obtain ⟨t, ht⟩ : ∃ t, g.col u = u :: t := by
    have := hf u hu
    cases hc : g.col u with
    | nil => rw [hc] at this; cases this
    | cons a l =>
      rw [hc] at this
      simp only [List.head?_cons, Option.some.injEq] at this
      exact ⟨l, by rw [this]⟩
  have hnot : u ∉ t := by
    have := hd u hu
    rw [ht, List.count_cons_self] at this
    exact List.count_eq_zero.1 (by omega)
  have hdep : g.Dep u v ↔ v ∈ t := by
    constructor
    · rintro ⟨_, h1, h2⟩
      rw [ht, List.mem_cons] at h1
      rcases h1 with h1 | h1
      · exact absurd h1.symm h2
      · exact h1
    · intro h
      exact ⟨hu, by rw [ht]; exact List.mem_cons_of_mem _ h, fun e => hnot (e ▸ h)⟩
  have hget : ∀ k, k + 1 < g.ptr (u + 1) - g.ptr u → t[k]? = some (g.idx (g.ptr u + (k + 1))) := by
    intro k hk
    have := getElem?_col hg hu hk
    rw [ht, List.getElem?_cons_succ] at this
    exact this
  rw [hdep]
  constructor
  · intro h
    obtain ⟨k, hk, he⟩ := List.getElem_of_mem h
    have hk' : k + 1 < g.ptr (u + 1) - g.ptr u := by
      rw [← hlen, ht, List.length_cons]; omega
    have := hget k hk'
    rw [List.getElem?_eq_getElem hk, Option.some.injEq] at this
    exact ⟨g.ptr u + (k + 1), by omega, by omega, by rw [← this, he]⟩
  · rintro ⟨q, h1, h2, h3⟩
    obtain ⟨k, hk⟩ : ∃ k, q = g.ptr u + (k + 1) := ⟨q - g.ptr u - 1, by omega⟩
    have := hget k (by omega)
    rw [← hk, h3] at this
    exact List.mem_of_getElem? this

theorem sorted_idx (hg : g.WF) (hs : g.Sorted) {u a b : Nat} (hu : u < g.n) (h1 : g.ptr u ≤ a)
    (hab : a < b) (h2 : b < g.ptr (u + 1)) : g.idx a < g.idx b := by
  have e1 := getElem?_col hg hu (k := a - g.ptr u) (by omega)
  have e2 := getElem?_col hg hu (k := b - g.ptr u) (by omega)
  rw [show g.ptr u + (a - g.ptr u) = a by omega] at e1
  rw [show g.ptr u + (b - g.ptr u) = b by omega] at e2
  have h3 := List.pairwise_iff_getElem.1 (hs u hu) (a - g.ptr u) (b - g.ptr u)
    (by rw [hg.col_length hu]; omega) (by rw [hg.col_length hu]; omega) (by omega)
  rw [List.getElem?_eq_getElem (by rw [hg.col_length hu]; omega), Option.some.injEq] at e1 e2
  rw [e1, e2] at h3
  exact h3

/-- Edge `q` of column `i` is implied through the child `k`. -/
def Via (g : Csc) (i k q : Nat) : Prop :=
  g.ptr i < q ∧ q < g.ptr (i + 1) ∧ ∃ r, g.ptr k < r ∧ r < g.ptr (k + 1) ∧ g.idx q = g.idx r

/-- `d'` marks what `d` marks and, in addition, only edges with `P`; all of them if `S`. -/
structure Marked (S : Prop) (P : Nat → Prop) (d d' : List Bool) : Prop where
  len : d'.length = d.length
  keep : ∀ q, d.getD q false = true → d'.getD q false = true
  sound : ∀ q, d'.getD q false = true → d.getD q false = true ∨ P q
  all : S → ∀ q, P q → d'.getD q false = true

theorem Marked.nil {S : Prop} {P : Nat → Prop} (h : ∀ q, ¬ P q) (d : List Bool) : Marked S P d d :=
  ⟨rfl, fun _ h => h, fun _ h => Or.inl h, fun _ q hq => absurd hq (h q)⟩

theorem Marked.trans {S : Prop} {P P' P'' : Nat → Prop} {d d' d'' : List Bool} (h : Marked S P d d')
    (h' : Marked S P' d' d'') (hP : ∀ q, P'' q ↔ P q ∨ P' q) : Marked S P'' d d'' := by
  refine ⟨h'.len.trans h.len, fun q hq => h'.keep q (h.keep q hq), ?_, ?_⟩
  · intro q hq
    rcases h'.sound q hq with h1 | h1
    · rcases h.sound q h1 with h2 | h2
      · exact Or.inl h2
      · exact Or.inr ((hP q).2 (Or.inl h2))
    · exact Or.inr ((hP q).2 (Or.inr h1))
  · intro hS q hq
    rcases (hP q).1 hq with h1 | h1
    · exact h'.keep q (h.all hS q h1)
    · exact h'.all hS q h1

theorem Marked.congr {S : Prop} {P P' : Nat → Prop} {d d' : List Bool} (h : Marked S P d d')
    (hP : ∀ q, P' q ↔ P q) : Marked S P' d d' :=
  ⟨h.len, h.keep, fun q hq => (h.sound q hq).imp_right (hP q).2, fun hS q hq => h.all hS q ((hP q).1 hq)⟩

theorem markChild_wp (hg : g.WF) {i k : Nat} (hi : i < g.n) (hk : k < g.n) {del : List Bool}
    (hl : g.ptr g.n ≤ del.length) (hp : g.ptr i < g.ptr (i + 1)) :
    wp (markChild g.p g.i (g.ptr i + 1) (g.ptr (i + 1)) k del)
      (Marked g.Sorted (Via g i k) del) := by
  unfold markChild
  rw [hg.rd_p (by omega), ok_bind, hg.rd_p (by omega), ok_bind, wp_bind]
  have hb1 := hg.mono_le (a := i + 1) (b := g.n) hi (le_refl _)
  have hb2 := hg.mono_le (a := k + 1) (b := g.n) hk (le_refl _)
  refine whileF_wp (fun (s : Nat × Nat × List Bool) =>
      g.ptr i + 1 ≤ s.1 ∧ s.1 ≤ g.ptr (i + 1) ∧ g.ptr k + 1 ≤ s.2.1 ∧
      s.2.2.length = del.length ∧
      (∀ q, del.getD q false = true → s.2.2.getD q false = true) ∧
      (∀ q, s.2.2.getD q false = true → del.getD q false = true ∨ Via g i k q) ∧
      (g.Sorted → ∀ q r, g.ptr i < q → q < g.ptr (i + 1) → g.ptr k < r → r < g.ptr (k + 1) →
        g.idx q = g.idx r → s.2.2.getD q false = true ∨ (s.1 ≤ q ∧ s.2.1 ≤ r)))
    (fun s => g.ptr (i + 1) - s.1 + (g.ptr (k + 1) - s.2.1)) ?_ _ _ (by dsimp only; omega) ?_
  · rintro ⟨l1, l2, d⟩ ⟨h1, h1', h2, h3, h4, h5, h6⟩
    dsimp only at h1 h1' h2 h3 h4 h5 h6
    rw [wp_ok]
    dsimp only
    by_cases hc : l1 < g.ptr (i + 1) ∧ l2 < g.ptr (k + 1)
    · rw [decide_eq_true hc]
      simp only [if_true]
      refine ⟨by omega, ?_⟩
      unfold mergeStep
      dsimp only
      rw [hg.rd_i (by omega), ok_bind, hg.rd_i (by omega), ok_bind]
      by_cases hab : g.idx l1 = g.idx l2
      · rw [if_pos hab, wr_eq (by omega), ok_bind, wp_ok]
        dsimp only
        refine ⟨⟨by omega, by omega, by omega, by simpa using h3, ?_, ?_, ?_⟩, by omega⟩
        · intro q hq
          rw [getD_set]
          split
          · rfl
          · exact h4 q hq
        · intro q hq
          rw [getD_set] at hq
          split at hq
          · next he => rw [← he.1]; exact Or.inr ⟨by omega, by omega, l2, by omega, by omega, hab⟩
          · exact h5 q hq
        · intro hs q r hq1 hq2 hr1 hr2 hqr
          rw [getD_set]
          rcases h6 hs q r hq1 hq2 hr1 hr2 hqr with h7 | ⟨h7, h8⟩
          · left; split
            · rfl
            · exact h7
          · by_cases hql : l1 = q
            · left; rw [if_pos ⟨hql, by omega⟩]
            · right
              refine ⟨by omega, ?_⟩
              by_contra hc'
              have hrl : r = l2 := by omega
              have := sorted_idx hg hs hi (a := l1) (b := q) (by omega) (by omega) hq2
              rw [hrl] at hqr
              omega
      · rw [if_neg hab]
        by_cases hlt : g.idx l1 < g.idx l2
        · rw [if_pos hlt, wp_ok]
          dsimp only
          refine ⟨⟨by omega, by omega, by omega, h3, h4, h5, ?_⟩, by omega⟩
          intro hs q r hq1 hq2 hr1 hr2 hqr
          rcases h6 hs q r hq1 hq2 hr1 hr2 hqr with h7 | ⟨h7, h8⟩
          · exact Or.inl h7
          · right
            refine ⟨?_, h8⟩
            by_contra hc'
            have hql : q = l1 := by omega
            rcases Nat.lt_or_ge l2 r with h9 | h9
            · have := sorted_idx hg hs hk (a := l2) (b := r) (by omega) h9 hr2
              rw [hql] at hqr; omega
            · have : r = l2 := by omega
              rw [this, hql] at hqr; omega
        · rw [if_neg hlt, wp_ok]
          dsimp only
          refine ⟨⟨by omega, by omega, by omega, h3, h4, h5, ?_⟩, by omega⟩
          intro hs q r hq1 hq2 hr1 hr2 hqr
          rcases h6 hs q r hq1 hq2 hr1 hr2 hqr with h7 | ⟨h7, h8⟩
          · exact Or.inl h7
          · right
            refine ⟨h7, ?_⟩
            by_contra hc'
            have hrl : r = l2 := by omega
            rcases Nat.lt_or_ge l1 q with h9 | h9
            · have := sorted_idx hg hs hi (a := l1) (b := q) (by omega) h9 hq2
              rw [hrl] at hqr; omega
            · have : q = l1 := by omega
              rw [this, hrl] at hqr; omega
    · rw [decide_eq_false hc]
      simp only [Bool.false_eq_true, if_false, wp_ok]
      refine ⟨h3, h4, h5, ?_⟩
      rintro hs q ⟨hq1, hq2, r, hr1, hr2, hqr⟩
      rcases h6 hs q r hq1 hq2 hr1 hr2 hqr with h7 | ⟨h7, h8⟩
      · exact h7
      · omega
  · dsimp only
    refine ⟨by omega, by omega, by omega, rfl, fun _ h => h, fun _ h => Or.inl h, ?_⟩
    intro _ q r hq1 _ hr1 _ _
    exact Or.inr ⟨by omega, by omega⟩

/-- Edge `q` of column `i` is implied by two others. -/
def Implied (g : Csc) (i q : Nat) : Prop :=
  g.ptr i < q ∧ q < g.ptr (i + 1) ∧ ∃ k, g.Dep i k ∧ g.Dep k (g.idx q)

theorem implied_iff (hg : g.WF) (hf : g.DiagFirst) (hd : g.OneDiag) {i q : Nat} (hi : i < g.n) :
    Implied g i q ↔ ∃ kp, g.ptr i + 1 ≤ kp ∧ kp < g.ptr (i + 1) ∧ Via g i (g.idx kp) q := by
  constructor
  · rintro ⟨h1, h2, k, h3, h4⟩
    obtain ⟨kp, h5, h6, h7⟩ := (dep_iff hg hf hd hi).1 h3
    obtain ⟨r, h8, h9, h10⟩ := (dep_iff hg hf hd h4.1).1 h4
    exact ⟨kp, h5, h6, h1, h2, r, by rw [h7]; exact h8, by rw [h7]; exact h9, h10.symm⟩
  · rintro ⟨kp, h1, h2, h3, h4, r, h5, h6, h7⟩
    have hk := hg.idx_lt hi (j := kp) (by omega) h2
    exact ⟨h3, h4, g.idx kp, (dep_iff hg hf hd hi).2 ⟨kp, by omega, h2, rfl⟩,
      (dep_iff hg hf hd hk).2 ⟨r, h5, h6, h7.symm⟩⟩

theorem ptr_lt (hg : g.WF) (hf : g.DiagFirst) {u : Nat} (hu : u < g.n) :
    g.ptr u < g.ptr (u + 1) := by
  have := col_ne_nil hf hu
  rw [hg.col_length hu] at this
  omega

theorem markEdges_wp (hg : g.WF) (hf : g.DiagFirst) (hd : g.OneDiag) {order : List Nat}
    (ho : order.Perm (List.range g.n)) {cnt : Nat} (hc : g.ptr g.n ≤ cnt) :
    wp (markEdges order g.p g.i cnt)
      (Marked g.Sorted (fun q => ∃ i, i < g.n ∧ Implied g i q) (List.replicate cnt false)) := by
  unfold markEdges
  refine wp_mono (forEach_wp (fun pre (del : List Bool) =>
    Marked g.Sorted (fun q => ∃ i, i ∈ pre ∧ Implied g i q) (List.replicate cnt false) del)
    order [] _ (Marked.nil (by simp) _) ?_) ?_
  · rintro pre i post del he hm
    rw [List.nil_append] at he
    have hi : i < g.n := List.mem_range.1 (ho.mem_iff.1 (by rw [he]; simp))
    have hlt := ptr_lt hg hf hi
    rw [hg.rd_p (by omega), ok_bind, hg.rd_p (by omega), ok_bind]
    refine forRange_wp' (fun kp (d : List Bool) =>
      Marked g.Sorted (fun q => (∃ i, i ∈ pre ∧ Implied g i q) ∨
        ∃ kp', g.ptr i + 1 ≤ kp' ∧ kp' < kp ∧ Via g i (g.idx kp') q) (List.replicate cnt false) d)
      (by omega) ?_ ?_ ?_
    · refine hm.congr ?_
      intro q
      constructor
      · rintro (h | ⟨kp', h1, h2, _⟩)
        · exact h
        · omega
      · exact Or.inl
    · intro kp d h1 h2 hmd
      have hb := hg.mono_le (a := i + 1) (b := g.n) hi (le_refl _)
      rw [hg.rd_i (by omega), ok_bind]
      refine wp_mono (markChild_wp hg hi (hg.idx_lt hi (by omega) h2)
        (by rw [hmd.len, List.length_replicate]; exact hc) hlt) ?_
      intro d' hd'
      refine hmd.trans hd' ?_
      intro q
      constructor
      · rintro (h | ⟨kp', h3, h4, h5⟩)
        · exact Or.inl (Or.inl h)
        · rcases Nat.lt_or_ge kp' kp with h6 | h6
          · exact Or.inl (Or.inr ⟨kp', h3, h6, h5⟩)
          · have : kp' = kp := by omega
            subst this; exact Or.inr h5
      · rintro ((h | ⟨kp', h3, h4, h5⟩) | h)
        · exact Or.inl h
        · exact Or.inr ⟨kp', h3, by omega, h5⟩
        · exact Or.inr ⟨kp, h1, by omega, h⟩
    · intro d hmd
      refine hmd.congr ?_
      intro q
      constructor
      · rintro ⟨i', h1, h2⟩
        rw [List.mem_append, List.mem_singleton] at h1
        rcases h1 with h1 | h1
        · exact Or.inl ⟨i', h1, h2⟩
        · subst h1; exact Or.inr ((implied_iff hg hf hd hi).1 h2)
      · rintro (⟨i', h1, h2⟩ | h)
        · exact ⟨i', List.mem_append_left _ h1, h2⟩
        · exact ⟨i, by simp, (implied_iff hg hf hd hi).2 h⟩
  · intro d hm
    refine hm.congr ?_
    intro q
    rw [List.nil_append]
    constructor
    · rintro ⟨i, h1, h2⟩; exact ⟨i, ho.mem_iff.2 (List.mem_range.2 h1), h2⟩
    · rintro ⟨i, h1, h2⟩; exact ⟨i, List.mem_range.1 (ho.mem_iff.1 h1), h2⟩

/-! ### The remaining edges -/

/-- The entries of column `i` that are not marked. -/
def keptCol (g : Csc) (del : List Bool) (i : Nat) : List Nat :=
  ((List.range' (g.ptr i) (g.ptr (i + 1) - g.ptr i)).filter fun q => !del.getD q false).map g.idx

theorem keptRow_eq (hg : g.WF) {del : List Bool} (hl : g.ptr g.n ≤ del.length) {i : Nat}
    (hi : i < g.n) (e : Edges) :
    forRange (g.ptr i) (g.ptr (i + 1)) (fun kp (s : Edges) => do
      let d ← rd del kp
      if d then ok s else do
        let k ← rd g.i kp
        ok ⟨s.ptr, s.set ++ [k], s.cnt + 1⟩) e
      = ok ⟨e.ptr, e.set ++ keptCol g del i, e.cnt + (keptCol g del i).length⟩ := by
  have hm := hg.mono i hi
  have hb := hg.mono_le (a := i + 1) (b := g.n) hi (le_refl _)
  obtain ⟨K, hK⟩ : ∃ K : Nat → List Nat, K = fun m =>
      ((List.range' (g.ptr i) m).filter fun q => !del.getD q false).map g.idx := ⟨_, rfl⟩
  have h : wp (forRange (g.ptr i) (g.ptr (i + 1)) (fun kp (s : Edges) => do
      let d ← rd del kp
      if d then ok s else do
        let k ← rd g.i kp
        ok ⟨s.ptr, s.set ++ [k], s.cnt + 1⟩) e) fun r =>
      r = ⟨e.ptr, e.set ++ keptCol g del i, e.cnt + (keptCol g del i).length⟩ := by
    refine forRange_wp' (fun j (s : Edges) =>
      s = ⟨e.ptr, e.set ++ K (j - g.ptr i), e.cnt + (K (j - g.ptr i)).length⟩) hm ?_ ?_ ?_
    · rw [hK]; simp
    · rintro j s hj1 hj2 rfl
      have hsucc : K (j + 1 - g.ptr i) = K (j - g.ptr i) ++
          (if del.getD j false = true then [] else [g.idx j]) := by
        rw [hK]
        dsimp only
        rw [show j + 1 - g.ptr i = j - g.ptr i + 1 by omega, List.range'_1_concat,
          List.filter_append, List.map_append,
          show g.ptr i + (j - g.ptr i) = j by omega]
        congr 1
        cases hdj : del.getD j false <;> simp
        all_goals simp_all
      rw [rd_getD false (by omega), ok_bind, hsucc]
      split
      · simp
      · rw [hg.rd_i (by omega), ok_bind, wp_ok]
        simp [Nat.add_assoc]
    · rintro s rfl
      rw [hK]; rfl
  obtain ⟨r, h1, h2⟩ := wp_iff.1 h
  rw [h1, h2]

theorem resize_length (l : List Nat) (m : Nat) : (resize l m).length = m := by
  unfold resize
  rw [List.length_append, List.length_take, List.length_replicate]
  omega

theorem keepEdges_wp (hg : g.WF) {del : List Bool} (hl : g.ptr g.n ≤ del.length) {ptr0 : List Nat}
    (h0 : ptr0.getD 0 0 = 0) :
    wp (keepEdges g.n g.p g.i del ptr0 []) fun r =>
      Stored (keptCol g del) ⟨g.n, r.1, r.2⟩ := by
  unfold keepEdges
  rw [wp_bind]
  refine forRange_wp' (fun i (e : Edges) => e.ptr.length = g.n + 1 ∧
      (∀ k, k ≤ i → e.ptr.getD k 0 = off (keptCol g del) k) ∧
      e.set = (List.range i).flatMap (keptCol g del) ∧ e.cnt = off (keptCol g del) i)
    (Nat.zero_le _) ?_ ?_ ?_
  · dsimp only
    refine ⟨resize_length _ _, ?_, rfl, (off_zero _).symm⟩
    intro k hk
    have : k = 0 := by omega
    subst this
    rw [off_zero]
    unfold resize
    cases ptr0 with
    | nil => simp [List.getD_eq_getElem?_getD]
    | cons a l => simpa using h0
  · rintro i e _ hi ⟨h1, h2, h3, h4⟩
    rw [hg.rd_p (by omega), ok_bind, hg.rd_p (by omega), ok_bind, keptRow_eq hg hl hi, ok_bind,
      wr_eq (by dsimp only; omega), ok_bind, wp_ok]
    dsimp only
    refine ⟨by simpa using h1, ?_, ?_, ?_⟩
    · intro k hk
      rw [getD_set]
      by_cases hik : i + 1 = k
      · rw [if_pos ⟨hik, by omega⟩, ← hik, off_succ, h4]
      · rw [if_neg (fun h => hik h.1)]
        exact h2 k (by omega)
    · rw [range_succ_flatMap, h3]
    · rw [off_succ, h4]
  · rintro e ⟨h1, h2, h3, h4⟩
    rw [wp_ok]
    exact ⟨h1, fun k hk => h2 k hk, h3⟩

/-- The original column without the marked entries. -/
theorem keptCol_sublist (hg : g.WF) (del : List Bool) {i : Nat} (hi : i < g.n) :
    (keptCol g del i).Sublist (g.col i) := by
  have : g.col i = (List.range' (g.ptr i) (g.ptr (i + 1) - g.ptr i)).map g.idx := by
    apply List.ext_getElem?
    intro k
    rw [List.getElem?_map]
    rcases Nat.lt_or_ge k (g.ptr (i + 1) - g.ptr i) with hk | hk
    · rw [getElem?_col hg hi hk, List.getElem?_range' hk]; simp
    · rw [List.getElem?_eq_none (by rw [hg.col_length hi]; exact hk),
        List.getElem?_eq_none (by simpa using hk)]; rfl
  rw [this]
  exact List.Sublist.map _ List.filter_sublist

theorem mem_keptCol {del : List Bool} {i v : Nat} : v ∈ keptCol g del i ↔
    ∃ q, g.ptr i ≤ q ∧ q < g.ptr (i + 1) ∧ del.getD q false = false ∧ g.idx q = v := by
  unfold keptCol
  rw [List.mem_map]
  constructor
  · rintro ⟨q, h1, h2⟩
    rw [List.mem_filter, List.mem_range'_1] at h1
    exact ⟨q, h1.1.1, by omega, by simpa using h1.2, h2⟩
  · rintro ⟨q, h1, h2, h3, h4⟩
    refine ⟨q, ?_, h4⟩
    rw [List.mem_filter, List.mem_range'_1]
    exact ⟨⟨h1, by omega⟩, by rw [h3]; rfl⟩

/-- What marking and copying do to a graph. -/
structure Reduced (h o : Csc) : Prop where
  n : o.n = h.n
  wf : o.WF
  exact : o.i.length = o.ptr o.n
  sub : ∀ u, u < h.n → (o.col u).Sublist (h.col u)
  diagFirst : o.DiagFirst
  removed : ∀ u v, h.Dep u v → ¬ o.Dep u v → ∃ k, h.Dep u k ∧ h.Dep k v
  full : h.Sorted → ∀ u k v, h.Dep u k → h.Dep k v → ¬ o.Dep u v

theorem Reduced.of_marked {h : Csc} (hg : h.WF) (hf : h.DiagFirst) (hd : h.OneDiag) {m : Nat}
    {del : List Bool}
    (hm : Marked h.Sorted (fun q => ∃ i, i < h.n ∧ Implied h i q) (List.replicate m false) del)
    {o : Csc} (hn : o.n = h.n) (hs : Stored (keptCol h del) o) : Reduced h o := by
  have hcol : ∀ u, u < h.n → o.col u = keptCol h del u := fun u hu => hs.col (by omega)
  have hmark : ∀ q, del.getD q false = true → ∃ i, i < h.n ∧ Implied h i q := by
    intro q hq
    rcases hm.sound q hq with h1 | h1
    · exfalso
      rw [List.getD_eq_getElem?_getD, List.getElem?_replicate] at h1
      split at h1 <;> simp at h1
    · exact h1
  have huniq : ∀ i i' q, i < h.n → i' < h.n → h.ptr i ≤ q → q < h.ptr (i + 1) → h.ptr i' ≤ q →
      q < h.ptr (i' + 1) → i = i' := by
    intro i i' q hi hi' h1 h2 h3 h4
    rcases Nat.lt_trichotomy i i' with h5 | h5 | h5
    · have := hg.mono_le (a := i + 1) (b := i') (by omega) (by omega); omega
    · exact h5
    · have := hg.mono_le (a := i' + 1) (b := i) (by omega) (by omega); omega
  have hsub : ∀ u, u < h.n → (o.col u).Sublist (h.col u) := by
    intro u hu
    rw [hcol u hu]; exact keptCol_sublist hg del hu
  refine ⟨hn, hs.wf ?_, hs.exact, hsub, ?_, ?_, ?_⟩
  · intro k hk v hv
    rw [hn] at hk ⊢
    exact hg.range k hk v ((keptCol_sublist hg del hk).subset hv)
  · intro u hu
    rw [hn] at hu
    rw [hcol u hu]
    have hlt := ptr_lt hg hf hu
    have hq : del.getD (h.ptr u) false = false := by
      cases hq : del.getD (h.ptr u) false with
      | false => rfl
      | true =>
        exfalso
        obtain ⟨i, hi, h1, h2, _⟩ := hmark _ hq
        have := huniq i u (h.ptr u) hi hu (by omega) h2 (le_refl _) hlt
        subst this; omega
    have hidx : h.idx (h.ptr u) = u := by
      have h1 := getElem?_col hg hu (k := 0) (by omega)
      have h2 := hf u hu
      rw [List.head?_eq_getElem?, h1] at h2
      simpa using h2
    unfold keptCol
    obtain ⟨m', hm'⟩ : ∃ m', h.ptr (u + 1) - h.ptr u = m' + 1 := ⟨h.ptr (u + 1) - h.ptr u - 1, by omega⟩
    rw [hm', List.range'_succ, List.filter_cons_of_pos (by rw [hq]; rfl), List.map_cons, List.head?_cons,
      hidx]
  · intro u v hd1 hd2
    obtain ⟨q, h1, h2, h3⟩ := (dep_iff hg hf hd hd1.1).1 hd1
    have hdel : del.getD q false = true := by
      by_contra hc
      apply hd2
      refine ⟨by rw [hn]; exact hd1.1, ?_, hd1.2.2⟩
      rw [hcol u hd1.1, mem_keptCol]
      exact ⟨q, by omega, h2, by simpa using hc, h3⟩
    obtain ⟨i, hi, h4, h5, k, h6, h7⟩ := hmark q hdel
    have := huniq i u q hi hd1.1 (by omega) h5 (by omega) h2
    subst this
    rw [h3] at h7
    exact ⟨k, h6, h7⟩
  · intro hsort u k v hd1 hd2 ho
    have hu := hd1.1
    obtain ⟨_, ho2, ho3⟩ := ho
    rw [hcol u hu, mem_keptCol] at ho2
    obtain ⟨q, h1, h2, h3, h4⟩ := ho2
    have hq : h.ptr u < q := by
      rcases Nat.lt_or_ge (h.ptr u) q with h5 | h5
      · exact h5
      · exfalso
        have : q = h.ptr u := by omega
        have h1' := getElem?_col hg hu (k := 0) (by omega)
        have h2' := hf u hu
        rw [List.head?_eq_getElem?, h1'] at h2'
        rw [this] at h4
        simp only [Nat.add_zero, Option.some.injEq] at h2'
        exact ho3 (h2'.symm.trans h4)
    have := hm.all hsort q ⟨u, hu, hq, h2, k, hd1, by rw [h4]; exact hd2⟩
    rw [h3] at this
    cases this

/-- Removing implied edges from an acyclic graph keeps all paths. -/
theorem Reduced.reach {h o : Csc} (hg : h.WF) (ha : h.Acyclic) (r : Reduced h o) {u v : Nat}
    (hd : h.Dep u v) : TransGen o.Dep u v := by
  have hdepth : ∀ w, w < h.n → ∃ k, h.IsDepth w k := fun w hw => Csc.exists_depth hg ha hw
  have hstep : ∀ u v du dv, h.IsDepth u du → h.IsDepth v dv → h.Dep u v → du < dv := by
    intro u v du dv h1 h2 h3
    have := h2.2 _ (Csc.PathTo.snoc h1.1 h3)
    omega
  have key : ∀ m u v du dv, h.IsDepth u du → h.IsDepth v dv → dv ≤ du + m → h.Dep u v →
      TransGen o.Dep u v := by
    intro m
    induction m with
    | zero => intro u v du dv h1 h2 h3 h4; have := hstep u v du dv h1 h2 h4; omega
    | succ m ih =>
      intro u v du dv h1 h2 h3 h4
      by_cases ho : o.Dep u v
      · exact TransGen.single ho
      · obtain ⟨k, h5, h6⟩ := r.removed u v h4 ho
        obtain ⟨dk, hk⟩ := hdepth k h6.1
        have h7 := hstep u k du dk h1 hk h5
        have h8 := hstep k v dk dv hk h2 h6
        exact TransGen.trans (ih u k du dk h1 hk (by omega) h5) (ih k v dk dv hk h2 (by omega) h6)
  have huv := hg.dep_lt hd
  obtain ⟨du, h1⟩ := hdepth u huv.1
  obtain ⟨dv, h2⟩ := hdepth v huv.2
  exact key dv u v du dv h1 h2 (by omega) hd

/-! ### The slow variant -/

theorem childList_eq (hg : g.WF) (hf : g.DiagFirst) {i : Nat} (hi : i < g.n) :
    childList g.p g.i i = ok (slice g.i (g.ptr i + 1) (g.ptr (i + 1))) := by
  have hlt := ptr_lt hg hf hi
  have hb := hg.mono_le (a := i + 1) (b := g.n) hi (le_refl _)
  have hb' := hg.bound
  unfold childList
  rw [hg.rd_p (by omega), ok_bind, hg.rd_p (by omega), ok_bind, if_neg (by omega)]
  have h : wp (forRange (g.ptr i + 1) (g.ptr (i + 1)) (fun kp acc => do
      let k ← rd g.i kp
      ok (acc ++ [k])) []) fun r => r = slice g.i (g.ptr i + 1) (g.ptr (i + 1)) := by
    refine forRange_wp' (fun j r => r = slice g.i (g.ptr i + 1) j) (by omega) (by rw [slice_self]) ?_
      (fun _ h => h)
    rintro j r h1 h2 rfl
    rw [rd_getD 0 (by omega), ok_bind, wp_ok, slice_succ h1 (getElem?_getD 0 (by omega))]
  obtain ⟨r, h1, h2⟩ := wp_iff.1 h
  rw [h1, h2]

theorem getD_child (hg : g.WF) {i id : Nat} (hi : i < g.n)
    (hid : id < (slice g.i (g.ptr i + 1) (g.ptr (i + 1))).length) :
    g.ptr i + 1 + id < g.ptr (i + 1) ∧
      (slice g.i (g.ptr i + 1) (g.ptr (i + 1))).getD id 0 = g.idx (g.ptr i + 1 + id) := by
  have hb := hg.mono_le (a := i + 1) (b := g.n) hi (le_refl _)
  have hb' := hg.bound
  rw [slice_length (by omega)] at hid
  refine ⟨by omega, ?_⟩
  rw [List.getD_eq_getElem?_getD, getElem?_slice, if_pos (by omega)]
  rfl

theorem takeWhile_getD (l : List Nat) (v : Nat) :
    (∀ k, k < lowerBound l v → l.getD k 0 < v) ∧
      (lowerBound l v < l.length → v ≤ l.getD (lowerBound l v) 0) ∧ lowerBound l v ≤ l.length := by
  unfold lowerBound
  induction l with
  | nil => simp
  | cons a l ih =>
    obtain ⟨h1, h2, h3⟩ := ih
    by_cases ha : a < v
    · rw [List.takeWhile_cons_of_pos (by simpa using ha)]
      refine ⟨?_, ?_, ?_⟩
      · intro k hk
        cases k with
        | zero => simpa using ha
        | succ k => rw [List.getD_cons_succ]; exact h1 k (by simpa using hk)
      · intro h
        rw [List.length_cons, List.getD_cons_succ]
        exact h2 (by simpa using h)
      · simpa using h3
    · rw [List.takeWhile_cons_of_neg (by simpa using ha)]
      refine ⟨by simp, ?_, by simp⟩
      intro _
      simpa using ha

theorem markSlow_wp (hg : g.WF) (hf : g.DiagFirst) (hd : g.OneDiag) (hs : g.Sorted) {i : Nat}
    (hi : i < g.n) {del : List Bool} (hl : g.ptr g.n ≤ del.length) :
    wp (markSlow g.p g.i i del) (Marked g.Sorted (Implied g i) del) := by
  unfold markSlow
  have hlt := ptr_lt hg hf hi
  have hb := hg.mono_le (a := i + 1) (b := g.n) hi (le_refl _)
  have hb' := hg.bound
  rw [childList_eq hg hf hi, ok_bind, hg.rd_p (by omega), ok_bind, hg.rd_p (by omega), ok_bind]
  refine forRange_wp' (fun kp (d : List Bool) => Marked g.Sorted
      (fun q => ∃ kp', g.ptr i + 1 ≤ kp' ∧ kp' < kp ∧ Via g i (g.idx kp') q) del d)
    (by omega) (Marked.nil (by rintro q ⟨k, h1, h2, _⟩; omega) _) ?_ ?_
  · intro kp d h1 h2 hmd
    have hk := hg.idx_lt hi (j := kp) (by omega) h2
    have hkb := hg.mono_le (a := g.idx kp + 1) (b := g.n) hk (le_refl _)
    have hkl := ptr_lt hg hf hk
    rw [hg.rd_i (by omega), ok_bind, hg.rd_p (by omega), ok_bind, hg.rd_p (by omega), ok_bind]
    obtain ⟨P, hP⟩ : ∃ P : Nat → Nat → Prop, P = fun jp q => g.ptr i < q ∧ q < g.ptr (i + 1) ∧
        ∃ r, g.ptr (g.idx kp) + 1 ≤ r ∧ r < jp ∧ g.idx q = g.idx r := ⟨_, rfl⟩
    refine wp_mono (forRange_wp (fun jp (d' : List Bool) => Marked g.Sorted (P jp) d d')
      (by omega) (Marked.nil (by rw [hP]; rintro q ⟨_, _, r, h3, h4, _⟩; omega) _) ?_) ?_
    · intro jp d' h3 h4 hmd'
      rw [hg.rd_i (by omega), ok_bind]
      have htw := takeWhile_getD (slice g.i (g.ptr i + 1) (g.ptr (i + 1))) (g.idx jp)
      generalize lowerBound (slice g.i (g.ptr i + 1) (g.ptr (i + 1))) (g.idx jp) = id at htw
      obtain ⟨t1, t2, t3⟩ := htw
      -- which position holds the value
      have hpos : ∀ q, g.ptr i < q → q < g.ptr (i + 1) → g.idx q = g.idx jp →
          id < (slice g.i (g.ptr i + 1) (g.ptr (i + 1))).length ∧ q = g.ptr i + 1 + id := by
        intro q hq1 hq2 hq3
        have hlen : q - (g.ptr i + 1) < (slice g.i (g.ptr i + 1) (g.ptr (i + 1))).length := by
          rw [slice_length (by omega)]; omega
        obtain ⟨_, e1⟩ := getD_child hg hi hlen
        rw [show g.ptr i + 1 + (q - (g.ptr i + 1)) = q by omega] at e1
        have hge : id ≤ q - (g.ptr i + 1) := by
          by_contra hc
          have := t1 (q - (g.ptr i + 1)) (by omega)
          omega
        have hid : id < (slice g.i (g.ptr i + 1) (g.ptr (i + 1))).length := by omega
        obtain ⟨e2, e3⟩ := getD_child hg hi hid
        have := t2 hid
        refine ⟨hid, ?_⟩
        by_contra hc
        have := sorted_idx hg hs hi (a := g.ptr i + 1 + id) (b := q) (by omega) (by omega) hq2
        omega
      have hsplit : ∀ q, P (jp + 1) q ↔ P jp q ∨
          (g.ptr i < q ∧ q < g.ptr (i + 1) ∧ g.idx q = g.idx jp) := by
        intro q
        rw [hP]
        constructor
        · rintro ⟨e1, e2, r, e3, e4, e5⟩
          rcases Nat.lt_or_ge r jp with h | h
          · exact Or.inl ⟨e1, e2, r, e3, h, e5⟩
          · have : r = jp := by omega
            subst this; exact Or.inr ⟨e1, e2, e5⟩
        · rintro (⟨e1, e2, r, e3, e4, e5⟩ | ⟨e1, e2, e5⟩)
          · exact ⟨e1, e2, r, e3, by omega, e5⟩
          · exact ⟨e1, e2, jp, h3, by omega, e5⟩
      have hnone : (∀ q, ¬ (g.ptr i < q ∧ q < g.ptr (i + 1) ∧ g.idx q = g.idx jp)) →
          Marked g.Sorted (P (jp + 1)) d d' := by
        intro h
        refine hmd'.congr ?_
        intro q
        rw [hsplit q]
        exact ⟨fun h' => h'.resolve_right (h q), Or.inl⟩
      by_cases hid : id < (slice g.i (g.ptr i + 1) (g.ptr (i + 1))).length
      · rw [if_pos hid, rd_getD 0 hid, ok_bind]
        obtain ⟨e2, e3⟩ := getD_child hg hi hid
        have e4 := t2 hid
        rw [e3] at e4 ⊢
        by_cases hc : g.idx (g.ptr i + 1 + id) ≤ g.idx jp
        · have hdl : g.ptr i + 1 + id < d'.length := by rw [hmd'.len, hmd.len]; omega
          rw [if_pos hc, wr_eq hdl, wp_ok]
          have hq : ∀ q, (g.ptr i < q ∧ q < g.ptr (i + 1) ∧ g.idx q = g.idx jp) ↔
              q = g.ptr i + 1 + id := by
            intro q
            constructor
            · rintro ⟨a1, a2, a3⟩; exact (hpos q a1 a2 a3).2
            · rintro rfl; exact ⟨by omega, e2, by omega⟩
          refine hmd'.trans (P' := fun q => q = g.ptr i + 1 + id) ⟨by simp, ?_, ?_, ?_⟩ ?_
          · intro q h5
            rw [getD_set]
            split
            · rfl
            · exact h5
          · intro q h5
            rw [getD_set] at h5
            split at h5
            · next he => exact Or.inr he.1.symm
            · exact Or.inl h5
          · rintro _ q rfl
            rw [getD_set, if_pos ⟨rfl, hdl⟩]
          · intro q
            rw [hsplit q, hq q]
        · rw [if_neg hc, wp_ok]
          apply hnone
          rintro q ⟨a1, a2, a3⟩
          have := (hpos q a1 a2 a3).2
          rw [this] at a3
          omega
      · rw [if_neg hid, wp_ok]
        apply hnone
        rintro q ⟨a1, a2, a3⟩
        exact hid (hpos q a1 a2 a3).1
    · intro d' hmd'
      have hP' : ∀ q, P (g.ptr (g.idx kp + 1)) q ↔ Via g i (g.idx kp) q := by
        intro q; rw [hP]; exact Iff.rfl
      refine hmd.trans (hmd'.congr (fun q => (hP' q).symm)) ?_
      intro q
      constructor
      · rintro ⟨kp', h3, h4, h5⟩
        rcases Nat.lt_or_ge kp' kp with h6 | h6
        · exact Or.inl ⟨kp', h3, h6, h5⟩
        · have : kp' = kp := by omega
          subst this; exact Or.inr h5
      · rintro (⟨kp', h3, h4, h5⟩ | h)
        · exact ⟨kp', h3, by omega, h5⟩
        · exact ⟨kp, h1, by omega, h⟩
  · intro d hmd
    exact hmd.congr fun q => implied_iff hg hf hd hi

theorem slowMarks_wp (hg : g.WF) (hf : g.DiagFirst) (hd : g.OneDiag) (hs : g.Sorted)
    {order : List Nat} (ho : order.Perm (List.range g.n)) {nnz : Nat} (hc : g.ptr g.n ≤ nnz) :
    wp (forEach order (markSlow g.p g.i) (List.replicate nnz false))
      (Marked g.Sorted (fun q => ∃ i, i < g.n ∧ Implied g i q) (List.replicate nnz false)) := by
  refine wp_mono (forEach_wp (fun pre (del : List Bool) =>
    Marked g.Sorted (fun q => ∃ i, i ∈ pre ∧ Implied g i q) (List.replicate nnz false) del)
    order [] _ (Marked.nil (by simp) _) ?_) ?_
  · rintro pre i post del he hm
    rw [List.nil_append] at he
    have hi : i < g.n := List.mem_range.1 (ho.mem_iff.1 (by rw [he]; simp))
    refine wp_mono (markSlow_wp hg hf hd hs hi (by rw [hm.len, List.length_replicate]; exact hc)) ?_
    intro d hmd
    refine hm.trans hmd ?_
    intro q
    constructor
    · rintro ⟨i', h1, h2⟩
      rw [List.mem_append, List.mem_singleton] at h1
      rcases h1 with h1 | h1
      · exact Or.inl ⟨i', h1, h2⟩
      · subst h1; exact Or.inr h2
    · rintro (⟨i', h1, h2⟩ | h)
      · exact ⟨i', List.mem_append_left _ h1, h2⟩
      · exact ⟨i, by simp, h⟩
  · intro d hm
    refine hm.congr ?_
    intro q
    rw [List.nil_append]
    constructor
    · rintro ⟨i, h1, h2⟩; exact ⟨i, ho.mem_iff.2 (List.mem_range.2 h1), h2⟩
    · rintro ⟨i, h1, h2⟩; exact ⟨i, List.mem_range.1 (ho.mem_iff.1 h1), h2⟩

end Verif.Sparsify
