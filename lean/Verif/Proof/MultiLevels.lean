import Verif.Model.MultiLevels
import Verif.Proof.LevelSet
import Verif.Proof.Paths
import Mathlib.Data.List.GetD

/-! # The level sets of several copies of a graph -/

namespace Verif.MLevel
open Res Csc

variable {g : Csc}

/-- The nodes of copy `q` among the numbers `D`. -/
def part (n q : Nat) (D : List Nat) : List Nat := (D.filter (fun x => x / n = q)).map (· % n)

theorem mem_part {n q v : Nat} {D : List Nat} (hv : v < n) : v ∈ part n q D ↔ v + n * q ∈ D := by
  unfold part
  rw [List.mem_map]
  constructor
  · rintro ⟨x, h1, h2⟩
    rw [List.mem_filter] at h1
    have h3 : x / n = q := by simpa using h1.2
    have := Nat.mod_add_div x n
    rw [h2, h3] at this
    rw [this]; exact h1.1
  · intro h
    refine ⟨v + n * q, List.mem_filter.2 ⟨h, ?_⟩, ?_⟩
    · have : (v + n * q) / n = q := by
        rw [Nat.add_mul_div_left _ _ (by omega), Nat.div_eq_of_lt hv]; omega
      simpa using this
    · rw [Nat.add_mul_mod_self_left, Nat.mod_eq_of_lt hv]

theorem remIn_congr {S T : List Nat} {v : Nat} (h : ∀ u, u < g.n → (u ∈ S ↔ u ∈ T)) :
    g.remIn S v = g.remIn T v := by
  unfold remIn
  refine Finset.sum_congr rfl (fun u hu => ?_)
  rw [Finset.mem_range] at hu
  simp only [h u hu]

theorem part_append_self {n v q : Nat} {D : List Nat} (hv : v < n) :
    part n q (D ++ [v + n * q]) = part n q D ++ [v] := by
  have h1 : (v + n * q) / n = q := by
    rw [Nat.add_mul_div_left _ _ (by omega), Nat.div_eq_of_lt hv]; omega
  have h2 : (v + n * q) % n = v := by
    rw [Nat.add_mul_mod_self_left, Nat.mod_eq_of_lt hv]
  unfold part
  rw [List.filter_append, List.map_append]
  simp [h1, h2]

theorem part_append_ne {n v q r : Nat} {D : List Nat} (hv : v < n) (hr : r ≠ q) :
    part n r (D ++ [v + n * q]) = part n r D := by
  have h1 : (v + n * q) / n = q := by
    rw [Nat.add_mul_div_left _ _ (by omega), Nat.div_eq_of_lt hv]; omega
  unfold part
  rw [List.filter_append, List.map_append]
  simp [h1, Ne.symm hr]

/-! ## The degrees -/

/-- `degrees` after the counting loop. -/
def DegOk (g : Csc) (K : Nat) (deg : List Int) : Prop :=
  deg.length = K * g.n ∧ ∀ q v, q < K → v < g.n →
    deg.getD (v + g.n * q) 0 = (if q = 0 then 0 else memsetOne) + (g.remIn [] v : Int)

theorem idx_lt {n K q v : Nat} (hq : q < K) (hv : v < n) : v + n * q < K * n := by
  have : n * (q + 1) ≤ n * K := Nat.mul_le_mul_left _ hq
  rw [Nat.mul_comm K n]
  rw [Nat.mul_add] at this
  omega

theorem idx_inj {n q r v w : Nat} (hv : v < n) (hw : w < n) (h : v + n * q = w + n * r) :
    v = w ∧ q = r := by
  have h1 : (v + n * q) / n = q := by
    rw [Nat.add_mul_div_left _ _ (by omega), Nat.div_eq_of_lt hv]; omega
  have h2 : (w + n * r) / n = r := by
    rw [Nat.add_mul_div_left _ _ (by omega), Nat.div_eq_of_lt hw]; omega
  rw [h] at h1
  have : q = r := by omega
  subst this
  exact ⟨by omega, rfl⟩

/-- The entries of a column after the diagonal. -/
theorem col_rest (h : g.WF) (hd1 : g.OneDiag) (hdf : g.DiagFirst) {cc : Nat} (hcc : cc < g.n) :
    ∃ rest, g.col cc = cc :: rest ∧
      (g.i.drop (g.ptr cc + 1)).take (g.ptr (cc + 1) - (g.ptr cc + 1)) = rest ∧
      (∀ v ∈ rest, v < g.n ∧ v ≠ cc) ∧
      g.ptr cc + 1 + (g.ptr (cc + 1) - (g.ptr cc + 1)) ≤ g.i.length := by
  have hm := h.mono cc hcc
  have hle := h.ptr_le (a := cc + 1) (by omega)
  have hb := h.bound
  have hcl := h.col_length hcc
  obtain ⟨rest, hrest⟩ : ∃ rest, g.col cc = cc :: rest := by
    have := hdf cc hcc
    cases hc : g.col cc with
    | nil => rw [hc] at this; simp at this
    | cons a l => rw [hc] at this; simp at this; exact ⟨l, by rw [this]⟩
  have hlen : 0 < (g.col cc).length := by rw [hrest]; simp
  have hr : (g.i.drop (g.ptr cc + 1)).take (g.ptr (cc + 1) - (g.ptr cc + 1)) = rest := by
    have : rest = (g.col cc).tail := by rw [hrest]; rfl
    rw [this, ← List.drop_one, col, List.drop_take, List.drop_drop]
    congr 1
  have hnc : rest.count cc = 0 := by
    have := hd1 cc hcc
    rw [hrest, List.count_cons_self] at this
    omega
  refine ⟨rest, hrest, hr, fun v hv => ⟨?_, ?_⟩, by omega⟩
  · exact h.range cc hcc v (by rw [hrest]; exact List.mem_cons_of_mem _ hv)
  · rintro rfl
    exact (List.count_eq_zero.1 hnc) hv

theorem remIn_rest {S : List Nat} {cc v : Nat} {rest : List Nat} (hcc : cc < g.n) (hns : cc ∉ S)
    (hrest : g.col cc = cc :: rest) (hne : ∀ v ∈ rest, v ≠ cc) :
    g.remIn S v = g.remIn (S ++ [cc]) v + rest.count v := by
  rw [remIn_append hcc hns]
  by_cases hvc : cc = v
  · subst hvc
    have : rest.count cc = 0 := List.count_eq_zero.2 (fun h => hne _ h rfl)
    simp [this]
  · rw [if_neg hvc, hrest, List.count_cons_of_ne (by simpa using hvc)]

theorem remIn_range {v : Nat} : g.remIn (List.range g.n) v = 0 := by
  rw [remIn_eq_zero]
  intro u hu
  exact List.mem_range.2 hu.1

theorem countDegrees_spec (h : g.WF) (hd1 : g.OneDiag) (hdf : g.DiagFirst) {K : Nat} (hK : 0 < K) :
    wp (countDegrees g.n K g.p g.i (initDegrees g.n K)) (DegOk g K) := by
  unfold countDegrees
  refine forRange_wp' (fun i (deg : List Int) => deg.length = K * g.n ∧ ∀ q v, q < K → v < g.n →
    deg.getD (v + g.n * q) 0 + g.remIn (List.range i) v
      = (if q = 0 then 0 else memsetOne) + (g.remIn [] v : Int)) (Nat.zero_le _) ⟨?_, ?_⟩ ?_ ?_
  · unfold initDegrees
    obtain ⟨k, rfl⟩ : ∃ k, K = k + 1 := ⟨K - 1, by omega⟩
    simp
    ring
  · intro q v hq hv
    have : (initDegrees g.n K).getD (v + g.n * q) 0 = if q = 0 then 0 else memsetOne := by
      unfold initDegrees
      have hlt := idx_lt hq hv
      by_cases hq0 : q = 0
      · subst hq0
        rw [if_pos rfl, List.getD_append _ _ _ _ (by simpa using hv),
          getD_replicate _ _ _ _ (by simpa using hv)]
      · rw [if_neg hq0]
        have h1 : g.n * 1 ≤ g.n * q := Nat.mul_le_mul_left _ (by omega)
        have h2 : g.n * (q - 1) + g.n * 1 = g.n * q := by
          rw [← Nat.mul_add]; congr 1; omega
        have h3 : v + g.n * (q - 1) < (K - 1) * g.n := idx_lt (by omega) hv
        rw [Nat.mul_comm (K - 1)] at h3
        rw [List.getD_append_right _ _ _ _ (by simp; omega), getD_replicate _ _ _ _ (by simp; omega)]
    rw [this]; simp
  · rintro i deg _ hi ⟨hl, hv⟩
    obtain ⟨rest, hrest, hr, hmem, hb⟩ := col_rest h hd1 hdf hi
    rw [h.rd_p (by omega), h.rd_p (by omega)]
    simp only [ok_bind]
    unfold forRange
    rw [forRange_rd g.i (fun v deg => forN (K - 0) 0 (fun q deg => do
        let d ← rd deg (v + g.n * q)
        wr deg (v + g.n * q) (d + 1)) deg) _ _ _ hb, hr]
    have hrs : ∀ v, g.remIn (List.range i) v = g.remIn (List.range (i + 1)) v + rest.count v := by
      intro v
      rw [List.range_succ]
      exact remIn_rest hi (by simp) hrest (fun v hv => (hmem v hv).2)
    refine wp_mono (forEach_wp (fun (pre : List Nat) (deg : List Int) => deg.length = K * g.n ∧
      ∀ q v, q < K → v < g.n → deg.getD (v + g.n * q) 0 + g.remIn (List.range (i + 1)) v
        + rest.count v - pre.count v
          = (if q = 0 then 0 else memsetOne) + (g.remIn [] v : Int)) rest [] deg ⟨hl, ?_⟩ ?_) ?_
    · intro q v hq hvn
      have := hv q v hq hvn
      rw [hrs v] at this
      rw [List.count_nil]
      push_cast at this ⊢
      omega
    · rintro p a t deg' heq ⟨h1, h2⟩
      rw [List.nil_append] at heq
      have ha := (hmem a (by rw [heq]; simp)).1
      have := forRange_wp' (lo := 0) (hi := K) (f := fun q deg => do
          let d ← rd deg (a + g.n * q)
          wr deg (a + g.n * q) (d + 1)) (s := deg')
        (fun r (deg : List Int) => deg.length = K * g.n ∧ ∀ q v, q < K → v < g.n →
          deg.getD (v + g.n * q) 0 = deg'.getD (v + g.n * q) 0 + if v = a ∧ q < r then 1 else 0)
        (Q := fun deg => deg.length = K * g.n ∧
          ∀ q v, q < K → v < g.n → deg.getD (v + g.n * q) 0 + g.remIn (List.range (i + 1)) v
            + rest.count v - (p ++ [a]).count v
              = (if q = 0 then 0 else memsetOne) + (g.remIn [] v : Int))
        (Nat.zero_le _) ⟨h1, by intro q v _ _; simp⟩ ?_ ?_
      · exact this
      · rintro r d _ hr ⟨e1, e2⟩
        have hlt := idx_lt hr ha
        rw [rd_getD 0 (by omega)]
        simp only [ok_bind]
        rw [wr_eq (by omega), wp_ok]
        refine ⟨by simpa using e1, fun q v hq hvn => ?_⟩
        rw [getD_set]
        by_cases hc : a + g.n * r = v + g.n * q
        · obtain ⟨rfl, rfl⟩ := idx_inj ha hvn hc
          rw [if_pos ⟨rfl, by omega⟩, e2 _ _ hq ha, if_neg (by omega), if_pos ⟨rfl, by omega⟩]
          omega
        · rw [if_neg (fun h => hc h.1), e2 q v hq hvn]
          congr 1
          by_cases hva : v = a
          · subst hva
            have : q ≠ r := by rintro rfl; exact hc rfl
            by_cases hqr : q < r
            · rw [if_pos ⟨rfl, hqr⟩, if_pos ⟨rfl, by omega⟩]
            · rw [if_neg (fun h => hqr h.2), if_neg (fun h => by omega)]
          · rw [if_neg (fun h => hva h.1), if_neg (fun h => hva h.1)]
      · rintro d ⟨e1, e2⟩
        refine ⟨e1, fun q v hq hvn => ?_⟩
        have h4 := h2 q v hq hvn
        rw [e2 q v hq hvn, List.count_append, List.count_singleton]
        by_cases hva : v = a
        · subst hva
          rw [if_pos ⟨rfl, hq⟩, if_pos (by simp)]
          push_cast
          omega
        · rw [if_neg (fun h => hva h.1), if_neg (by simpa using fun h => hva h.symm)]
          push_cast
          omega
    · rintro d ⟨e1, e2⟩
      refine ⟨e1, fun q v hq hvn => ?_⟩
      have := e2 q v hq hvn
      simp at this ⊢
      omega
  · rintro d ⟨e1, e2⟩
    refine ⟨e1, fun q v hq hvn => ?_⟩
    have := e2 q v hq hvn
    rw [remIn_range] at this
    simpa using this

theorem initQueue_spec {n N : Nat} {deg : List Int} (hl : n ≤ deg.length) (hN : n ≤ N) :
    wp (initQueue n deg (List.replicate N false)) (fun s => s.1.Nodup ∧ s.2.length = N ∧
      (∀ x, x < N → (s.2.getD x false = true ↔ x ∈ s.1)) ∧
      ∀ v, v ∈ s.1 ↔ v < n ∧ deg.getD v 0 = 0) := by
  unfold initQueue
  refine forRange_wp (fun k (s : List Nat × List Bool) => s.1.Nodup ∧ s.2.length = N ∧
      (∀ x, x < N → (s.2.getD x false = true ↔ x ∈ s.1)) ∧
      ∀ v, v ∈ s.1 ↔ v < k ∧ deg.getD v 0 = 0)
    (Nat.zero_le _) ⟨by simp, by simp, ?_, by simp⟩ ?_
  · intro x hx
    rw [getD_replicate _ _ _ _ hx]; simp
  rintro i ⟨dq, inq⟩ _ hi ⟨h1, h2, h3, h4⟩
  dsimp only at h1 h2 h3 h4 ⊢
  rw [rd_getD 0 (by omega)]
  simp only [ok_bind]
  split
  · rename_i hd
    rw [wr_eq (by omega)]
    simp only [ok_bind, wp_ok]
    refine ⟨?_, by simpa using h2, fun x hx => ?_, fun v => ?_⟩
    · rw [List.nodup_append]
      refine ⟨h1, by simp, ?_⟩
      intro a ha b hb
      simp only [List.mem_singleton] at hb
      have := (h4 a).1 ha
      omega
    · rw [getD_set, List.mem_append, List.mem_singleton]
      by_cases hxi : i = x
      · subst hxi
        rw [if_pos ⟨rfl, by omega⟩]; simp
      · rw [if_neg (fun h => hxi h.1), h3 x hx]
        constructor
        · intro h; exact .inl h
        · rintro (h | h)
          · exact h
          · exact absurd h.symm hxi
    · rw [List.mem_append, h4, List.mem_singleton]
      constructor
      · rintro (⟨h3, h4⟩ | rfl)
        · exact ⟨by omega, h4⟩
        · exact ⟨by omega, hd⟩
      · rintro ⟨h3, h4⟩
        by_cases hv : v = i
        · exact .inr hv
        · exact .inl ⟨by omega, h4⟩
  · rename_i hd
    rw [wp_ok]
    refine ⟨h1, h2, h3, fun v => ?_⟩
    rw [h4]
    constructor
    · rintro ⟨h3, h4⟩; exact ⟨by omega, h4⟩
    · rintro ⟨h3, h4⟩
      refine ⟨?_, h4⟩
      by_contra hc
      have : v = i := by omega
      exact hd (this ▸ h4)

/-! ## One node -/

/-- The invariant inside a level.  `D`: the nodes taken out so far; `R q v`: the edges into node `v`
of copy `q` that have not been followed. -/
structure Core (g : Csc) (K : Nat) (R : Nat → Nat → Int) (D : List Nat) (s : St) : Prop where
  visLen : s.vis.length = K * g.n
  inqLen : s.inq.length = K * g.n
  levLen : s.levels.length = K * g.n
  done : s.levels.take s.num = D
  numD : s.num = D.length
  nodup : (D ++ s.queue).Nodup
  lt : ∀ x ∈ D ++ s.queue, x < K * g.n
  inq : ∀ x, x < K * g.n → (s.inq.getD x false = true ↔ x ∈ s.queue)
  link : ∀ y, y + g.n ∈ D ++ s.queue → y ∈ D
  nonneg : ∀ q v, 0 ≤ R q v
  zero : ∀ v, v < g.n → v ∈ D ++ s.queue → R 0 v = 0
  open0 : ∀ v, v < g.n → v ∉ D ++ s.queue →
    s.vis.getD v 0 + R 0 v = g.remIn [] v ∧ R 0 v ≠ 0
  high : ∀ q v, 0 < q → q < K → v < g.n →
    s.vis.getD (v + g.n * q) 0 + R q v ≤ g.remIn [] v + if v + g.n * q ∈ D then 1 else 0

theorem edge_spec {K : Nat} {R R' : Nat → Nat → Int} {D : List Nat} {s : St} {deg : List Int}
    (hdeg : DegOk g K deg) {q a : Nat} (hq : q < K) (ha : a < g.n) (hs : Core g K R D s)
    (hR : 0 < R q a) (hR' : ∀ r v, R' r v = R r v - if r = q ∧ v = a then 1 else 0) :
    wp (edge g.n q deg a s) (fun s' => Core g K R' D s' ∧ s'.num = s.num ∧
      ∃ nw, s'.queue = s.queue ++ nw ∧ s'.next = s.next + nw.length ∧ ∀ x ∈ nw, x < g.n) := by
  have hlt := idx_lt hq ha
  have hv := hs.visLen
  have hi := hs.inqLen
  unfold edge
  rw [rd_getD 0 (by omega)]
  simp only [ok_bind]
  rw [rd_getD 0 (by rw [hdeg.1]; exact hlt), rd_getD false (by omega)]
  simp only [ok_bind]
  rw [hdeg.2 q a hq ha]
  by_cases hq0 : q = 0
  · subst hq0
    rw [Nat.mul_zero, Nat.add_zero] at *
    have hnm : a ∉ D ++ s.queue := fun hm => by
      have := hs.zero a ha hm
      omega
    have ho := hs.open0 a ha hnm
    have hnq : s.inq.getD a false = false := by
      have := (hs.inq a hlt).not.2 (fun h => hnm (List.mem_append_right _ h))
      simpa using this
    rw [if_pos rfl]
    by_cases hone : R 0 a = 1
    · rw [if_pos ⟨by omega, hnq⟩, wr_eq (by omega)]
      simp only [ok_bind, wp_ok]
      refine ⟨⟨hv, by simpa using hi, hs.levLen, hs.done, hs.numD, ?_, ?_, ?_, ?_, ?_, ?_, ?_, ?_⟩,
        trivial, [a], rfl, rfl, by simpa using ha⟩
      · dsimp only
        rw [← List.append_assoc, List.nodup_append]
        refine ⟨hs.nodup, by simp, ?_⟩
        rintro x hx y hy rfl
        rw [List.mem_singleton] at hy
        exact hnm (hy ▸ hx)
      · intro x hx
        dsimp only at hx
        rw [← List.append_assoc, List.mem_append, List.mem_singleton] at hx
        rcases hx with hx | rfl
        · exact hs.lt x hx
        · exact hlt
      · intro x hx
        dsimp only
        rw [getD_set, List.mem_append, List.mem_singleton]
        by_cases hxa : a = x
        · subst hxa
          rw [if_pos ⟨rfl, by omega⟩]; simp
        · rw [if_neg (fun h => hxa h.1), hs.inq x hx]
          exact ⟨.inl, fun h => h.resolve_right (fun h => hxa h.symm)⟩
      · intro y hy
        dsimp only at hy
        rw [← List.append_assoc, List.mem_append, List.mem_singleton] at hy
        rcases hy with hy | hy
        · exact hs.link y hy
        · omega
      · intro r v
        rw [hR']
        have := hs.nonneg r v
        split
        · rename_i h; rw [h.1, h.2]; omega
        · omega
      · intro v hvn hm
        dsimp only at hm
        rw [← List.append_assoc, List.mem_append, List.mem_singleton] at hm
        rw [hR']
        by_cases hva : v = a
        · rw [if_pos ⟨rfl, hva⟩, hva]; omega
        · rw [if_neg (fun h => hva h.2), hs.zero v hvn (hm.resolve_right hva)]; rfl
      · intro v hvn hm
        dsimp only at hm ⊢
        rw [← List.append_assoc, List.mem_append, List.mem_singleton, not_or] at hm
        rw [hR', if_neg (fun h => hm.2 h.2), sub_zero]
        exact hs.open0 v hvn hm.1
      · intro r v hr hrK hvn
        dsimp only
        rw [hR', if_neg (fun h => by omega), sub_zero]
        exact hs.high r v hr hrK hvn
    · rw [if_neg (fun h => by omega), wr_eq (by omega)]
      simp only [ok_bind, wp_ok]
      refine ⟨⟨by simpa using hv, hi, hs.levLen, hs.done, hs.numD, hs.nodup, hs.lt, hs.inq, hs.link,
        ?_, ?_, ?_, ?_⟩, trivial, [], by simp, rfl, by simp⟩
      · intro r v
        rw [hR']
        have := hs.nonneg r v
        split
        · rename_i h; rw [h.1, h.2]; omega
        · omega
      · intro v hvn hm
        rw [hR', if_neg (by rintro ⟨_, h⟩; exact hnm (h ▸ hm)), hs.zero v hvn hm]; rfl
      · intro v hvn hm
        dsimp only
        have := hs.open0 v hvn hm
        rw [getD_set, hR']
        by_cases hva : a = v
        · subst hva
          rw [if_pos ⟨rfl, by omega⟩, if_pos ⟨rfl, rfl⟩]
          omega
        · rw [if_neg (fun h => hva h.1), if_neg (fun h => hva h.2.symm), sub_zero]
          exact this
      · intro r v hr hrK hvn
        dsimp only
        rw [hR', if_neg (fun h => by omega), sub_zero, getD_set, if_neg ?_]
        · exact hs.high r v hr hrK hvn
        · rintro ⟨h, _⟩
          have := (idx_inj (q := 0) ha hvn (by simpa using h)).2
          omega
  · have hh : s.vis.getD (a + g.n * q) 0 + R q a ≤ g.remIn [] a + 1 := by
      have := hs.high q a (by omega) hq ha
      split at this <;> omega
    have hm : memsetOne = 16843009 := rfl
    rw [if_neg hq0, if_neg (fun h => by omega), wr_eq (by omega)]
    simp only [ok_bind, wp_ok]
    have hge : g.n ≤ a + g.n * q := by
      have : g.n * 1 ≤ g.n * q := Nat.mul_le_mul_left _ (by omega)
      omega
    refine ⟨⟨by simpa using hv, hi, hs.levLen, hs.done, hs.numD, hs.nodup, hs.lt, hs.inq, hs.link,
        ?_, ?_, ?_, ?_⟩, trivial, [], by simp, rfl, by simp⟩
    · intro r v
      rw [hR']
      have := hs.nonneg r v
      split
      · rename_i h; rw [h.1, h.2]; omega
      · omega
    · intro v hvn hm
      rw [hR', if_neg (fun h => hq0 h.1.symm), hs.zero v hvn hm]; rfl
    · intro v hvn hm
      dsimp only
      rw [getD_set, if_neg (fun h => by omega), hR', if_neg (fun h => hq0 h.1.symm), sub_zero]
      exact hs.open0 v hvn hm
    · intro r v hr hrK hvn
      dsimp only
      rw [hR', getD_set]
      have := hs.high r v hr hrK hvn
      by_cases hc : a + g.n * q = v + g.n * r
      · obtain ⟨rfl, rfl⟩ := idx_inj ha hvn hc
        rw [if_pos ⟨rfl, by omega⟩, if_pos ⟨rfl, rfl⟩]
        omega
      · rw [if_neg (fun h => hc h.1), if_neg ?_, sub_zero]
        · exact this
        · rintro ⟨rfl, rfl⟩; exact hc rfl

/-- The edges of copy `q` into `v` from nodes that are not in `D`. -/
def RD (g : Csc) (D : List Nat) (q v : Nat) : Int := g.remIn (part g.n q D) v

theorem pop_spec (h : g.WF) (hd1 : g.OneDiag) (hdf : g.DiagFirst) {K : Nat} {D : List Nat} {s : St}
    {deg : List Int} (hdeg : DegOk g K deg) (hs : Core g K (RD g D) D s) {x : Nat} {Q : List Nat}
    (hx : s.queue = x :: Q) :
    wp (pop g.n K g.p g.i deg s) (fun s' => Core g K (RD g (D ++ [x])) (D ++ [x]) s' ∧
      ∃ nw, s'.queue = Q ++ nw ∧ s'.next = s.next + nw.length ∧
        ∀ y, y + g.n ∈ nw ↔ y = x ∧ y + g.n < K * g.n) := by
  have hxm : x ∈ D ++ s.queue := by rw [hx]; simp
  have hxlt := hs.lt x hxm
  have hn : 0 < g.n := by
    rcases Nat.eq_zero_or_pos g.n with h0 | h0
    · rw [h0] at hxlt; simp at hxlt
    · exact h0
  have hxD : x ∉ D := by
    have := hs.nodup
    rw [hx, List.nodup_append] at this
    intro hc
    exact this.2.2 x hc x (by simp) rfl
  have hxQ : x ∉ Q := by
    have := hs.nodup
    rw [hx, List.nodup_append] at this
    exact (List.nodup_cons.1 this.2.1).1
  have hD1 : ∀ y, y ∈ D ++ [x] ++ Q ↔ y ∈ D ++ s.queue := by
    intro y
    rw [hx]; simp [List.append_assoc]
  have hv := hs.visLen
  have hi := hs.inqLen
  have hl := hs.levLen
  have hnum := hs.numD
  have hnumlt : s.num < K * g.n := by
    have h1 := LevelSet.nodup_length_le hs.nodup hs.lt
    rw [hx] at h1
    simp at h1
    omega
  obtain ⟨v, q, hvn, rfl, hxv, hxq⟩ : ∃ v q, v < g.n ∧ x = v + g.n * q ∧
      (x - x / g.n * g.n) = v ∧ x / g.n = q := by
    refine ⟨x % g.n, x / g.n, Nat.mod_lt _ hn, (Nat.mod_add_div x g.n).symm, ?_, rfl⟩
    have := Nat.mod_add_div x g.n
    rw [Nat.mul_comm] at this
    omega
  have hqK : q < K := by
    by_contra hc
    have : g.n * K ≤ g.n * q := Nat.mul_le_mul_left _ (by omega)
    rw [Nat.mul_comm K] at hxlt
    omega
  unfold pop
  rw [hx]
  dsimp only
  rw [rd_getD 0 (by omega)]
  simp only [ok_bind]
  rw [wr_eq (by omega), wr_eq (by omega)]
  simp only [ok_bind]
  rw [wr_eq (by omega)]
  simp only [ok_bind]
  rw [if_neg (by omega), hxv, hxq, h.rd_p (by omega), h.rd_p (by omega)]
  simp only [ok_bind]
  obtain ⟨rest, hrest, hr, hmem, hb⟩ := col_rest h hd1 hdf hvn
  have hc0 : Core g K (RD g D) (D ++ [v + g.n * q]) ⟨Q,
      s.vis.set (v + g.n * q) (s.vis.getD (v + g.n * q) 0 + 1), s.inq.set (v + g.n * q) false,
      s.levels.set s.num (v + g.n * q), s.num + 1, s.next⟩ := by
    refine ⟨by simpa using hv, by simpa using hi, by simpa using hl, ?_, by simp [hnum], ?_, ?_, ?_,
      ?_, hs.nonneg, ?_, ?_, ?_⟩
    · dsimp only
      rw [LevelSet.take_set_succ _ _ _ (by omega), hs.done]
    · have := hs.nodup
      rw [hx] at this
      simpa using this
    · intro y hy
      exact hs.lt y ((hD1 y).1 hy)
    · intro y hy
      dsimp only
      rw [getD_set]
      by_cases hya : v + g.n * q = y
      · subst hya
        rw [if_pos ⟨rfl, by omega⟩]
        exact ⟨fun h => by simp at h, fun h => absurd h hxQ⟩
      · rw [if_neg (fun h => hya h.1), hs.inq y hy, hx, List.mem_cons]
        exact ⟨fun h => h.resolve_left (fun h => hya h.symm), .inr⟩
    · intro y hy
      exact List.mem_append_left _ (hs.link y ((hD1 _).1 hy))
    · intro w hw hm
      exact hs.zero w hw ((hD1 w).1 hm)
    · intro w hw hm
      dsimp only at hm ⊢
      rw [hD1] at hm
      rw [getD_set, if_neg (by rintro ⟨h, _⟩; exact hm (h ▸ hxm))]
      exact hs.open0 w hw hm
    · intro r w hr hrK hw
      dsimp only
      have h1 := hs.high r w hr hrK hw
      rw [getD_set]
      by_cases hc : v + g.n * q = w + g.n * r
      · obtain ⟨rfl, rfl⟩ := idx_inj hvn hw hc
        rw [if_neg hxD] at h1
        rw [if_pos ⟨rfl, by omega⟩, if_pos (by simp)]
        omega
      · rw [if_neg (fun h => hc h.1)]
        have : w + g.n * r ∈ D ++ [v + g.n * q] ↔ w + g.n * r ∈ D := by
          rw [List.mem_append, List.mem_singleton]
          exact ⟨fun h => h.resolve_right (fun h => hc h.symm), .inl⟩
        simp only [this]
        exact h1
  have hns : v ∉ part g.n q D := fun hc => hxD ((mem_part hvn).1 hc)
  have hRrest : ∀ w, RD g D q w = RD g (D ++ [v + g.n * q]) q w + rest.count w := by
    intro w
    unfold RD
    rw [part_append_self hvn, remIn_rest hvn hns hrest (fun v hv => (hmem v hv).2)]
    push_cast; rfl
  rw [wp_bind]
  unfold forRange
  rw [forRange_rd g.i (fun w s => edge g.n q deg w s) _ _ _ hb, hr]
  refine wp_mono (forEach_wp (fun (pre : List Nat) (s' : St) =>
    Core g K (fun r w => RD g D r w - if r = q then (pre.count w : Int) else 0)
      (D ++ [v + g.n * q]) s' ∧
    ∃ nw, s'.queue = Q ++ nw ∧ s'.next = s.next + nw.length ∧ ∀ x ∈ nw, x < g.n) rest [] _
      ⟨by simpa using hc0, [], by simp, rfl, by simp⟩ ?_) ?_
  · rintro p a t s' heq ⟨h1, nw, h2, h3, h4⟩
    rw [List.nil_append] at heq
    have ha := (hmem a (by rw [heq]; simp)).1
    refine wp_mono (edge_spec hdeg hqK ha h1 (R' := fun r w =>
      RD g D r w - if r = q then ((p ++ [a]).count w : Int) else 0) ?_ ?_) ?_
    · have hge : rest.count a = p.count a + 1 + t.count a := by
        rw [heq, List.count_append, List.count_cons_self]; omega
      have h5 := hRrest a
      have h6 : 0 ≤ RD g (D ++ [v + g.n * q]) q a := by unfold RD; omega
      rw [if_pos rfl]
      omega
    · intro r w
      rw [List.count_append]
      by_cases hr : r = q
      · by_cases hw : w = a
        · simp [hr, hw]; omega
        · simp [hr, hw, Ne.symm hw]
      · simp [hr]
    · rintro s'' ⟨e1, -, nw', e2, e3, e4⟩
      refine ⟨e1, nw ++ nw', by rw [e2, h2, List.append_assoc], by rw [e3, h3]; simp; omega, ?_⟩
      intro x hx
      rcases List.mem_append.1 hx with hx | hx
      · exact h4 x hx
      · exact e4 x hx
  · rintro s' ⟨h1, nw, h2, h3, h4⟩
    have h1' : Core g K (RD g (D ++ [v + g.n * q])) (D ++ [v + g.n * q]) s' := by
      have : (fun r w => RD g D r w - if r = q then (([] ++ rest).count w : Int) else 0)
          = RD g (D ++ [v + g.n * q]) := by
        funext r w
        by_cases hr : r = q
        · subst hr
          rw [if_pos rfl, hRrest w]; simp
        · rw [if_neg hr]
          unfold RD
          rw [part_append_ne hvn hr]; omega
      rw [this] at h1; exact h1
    unfold nextCopy
    by_cases hk : q < K - 1
    · rw [if_pos hk]
      have hlt2 := idx_lt (n := g.n) (K := K) (q := q + 1) (by omega) hvn
      have he : v + g.n * (q + 1) = v + g.n * q + g.n := by ring
      rw [wr_eq (by rw [h1'.inqLen]; exact hlt2)]
      simp only [ok_bind, wp_ok]
      have hnm : v + g.n * (q + 1) ∉ D ++ [v + g.n * q] ++ s'.queue := by
        rw [h2, ← List.append_assoc, List.mem_append, hD1, he]
        rintro (hc | hc)
        · exact hxD (hs.link _ hc)
        · have := h4 _ hc; omega
      refine ⟨⟨h1'.visLen, by simpa using h1'.inqLen, h1'.levLen, h1'.done, h1'.numD, ?_, ?_, ?_, ?_,
        h1'.nonneg, ?_, ?_, h1'.high⟩, nw ++ [v + g.n * (q + 1)], by simp [h2], by simp [h3]; omega, ?_⟩
      · dsimp only
        rw [← List.append_assoc, List.nodup_append]
        refine ⟨h1'.nodup, by simp, ?_⟩
        rintro y hy z hz rfl
        rw [List.mem_singleton] at hz
        exact hnm (hz ▸ hy)
      · intro y hy
        dsimp only at hy
        rw [← List.append_assoc, List.mem_append, List.mem_singleton] at hy
        rcases hy with hy | rfl
        · exact h1'.lt y hy
        · exact hlt2
      · intro y hy
        dsimp only
        rw [getD_set, List.mem_append, List.mem_singleton]
        by_cases hya : v + g.n * (q + 1) = y
        · subst hya
          rw [if_pos ⟨rfl, by rw [h1'.inqLen]; exact hlt2⟩]; simp
        · rw [if_neg (fun h => hya h.1), h1'.inq y hy]
          exact ⟨.inl, fun h => h.resolve_right (fun h => hya h.symm)⟩
      · intro y hy
        dsimp only at hy
        rw [← List.append_assoc, List.mem_append, List.mem_singleton] at hy
        rcases hy with hy | hy
        · exact h1'.link y hy
        · have : y = v + g.n * q := by omega
          rw [this]; simp
      · intro w hw hm
        dsimp only at hm
        rw [← List.append_assoc, List.mem_append, List.mem_singleton] at hm
        rcases hm with hm | hm
        · exact h1'.zero w hw hm
        · omega
      · intro w hw hm
        dsimp only at hm ⊢
        rw [← List.append_assoc, List.mem_append, not_or] at hm
        exact h1'.open0 w hw hm.1
      · intro y
        rw [List.mem_append, List.mem_singleton]
        constructor
        · rintro (hy | hy)
          · have := h4 _ hy; omega
          · have : y = v + g.n * q := by omega
            subst this
            exact ⟨rfl, by omega⟩
        · rintro ⟨rfl, _⟩
          exact .inr (by omega)
    · rw [if_neg hk, wp_ok]
      refine ⟨h1', nw, h2, h3, fun y => ⟨fun hy => ?_, ?_⟩⟩
      · have := h4 _ hy; omega
      · rintro ⟨rfl, hlt⟩
        exfalso
        have : K = q + 1 := by omega
        subst this
        rw [Nat.mul_comm (q + 1), Nat.mul_add] at hlt
        omega

/-! ## One level -/

theorem pops_spec (h : g.WF) (hd1 : g.OneDiag) (hdf : g.DiagFirst) {K : Nat} {D : List Nat} {s : St}
    {deg : List Int} (hdeg : DegOk g K deg) (hs : Core g K (RD g D) D s) (hn0 : s.next = 0) :
    wp (forRange 0 s.queue.length (fun _ t => pop g.n K g.p g.i deg t) s) (fun t =>
      Core g K (RD g (D ++ s.queue)) (D ++ s.queue) t ∧ t.next = t.queue.length ∧
        ∀ y, y + g.n ∈ t.queue ↔ y ∈ s.queue ∧ y + g.n < K * g.n) := by
  refine forRange_wp' (fun i (t : St) =>
      Core g K (RD g (D ++ s.queue.take i)) (D ++ s.queue.take i) t ∧
      ∃ nq, t.queue = s.queue.drop i ++ nq ∧ t.next = nq.length ∧
        ∀ y, y + g.n ∈ nq ↔ y ∈ s.queue.take i ∧ y + g.n < K * g.n)
    (Nat.zero_le _) ⟨by simpa using hs, [], by simp, by simpa using hn0, by simp⟩ ?_ ?_
  · rintro i t _ hi ⟨h1, nq, h2, h3, h4⟩
    have e1 : t.queue = s.queue[i] :: (s.queue.drop (i + 1) ++ nq) := by
      rw [h2, List.drop_eq_getElem_cons hi]; rfl
    have e2 : s.queue.take (i + 1) = s.queue.take i ++ [s.queue[i]] := by
      rw [List.take_add_one, List.getElem?_eq_getElem hi]; rfl
    refine wp_mono (pop_spec h hd1 hdf hdeg h1 e1) ?_
    rintro t' ⟨f1, nw, f2, f3, f4⟩
    rw [e2, ← List.append_assoc]
    refine ⟨f1, nq ++ nw, by rw [f2, List.append_assoc], by rw [f3, h3]; simp, fun y => ?_⟩
    rw [List.mem_append, h4, f4, List.mem_append, List.mem_singleton]
    constructor
    · rintro (⟨a, b⟩ | ⟨a, b⟩)
      · exact ⟨.inl a, b⟩
      · exact ⟨.inr a, b⟩
    · rintro ⟨a | a, b⟩
      · exact .inl ⟨a, b⟩
      · exact .inr ⟨a, b⟩
  · rintro t ⟨h1, nq, h2, h3, h4⟩
    rw [List.take_length] at h1 h4
    rw [List.drop_length, List.nil_append] at h2
    subst h2
    exact ⟨h1, h3, h4⟩

/-- The nodes whose turn is before level `t`. -/
def Before (g : Csc) (K t x : Nat) : Prop := x < K * g.n ∧ ¬ g.PathTo (t - x / g.n) (x % g.n)

/-- The nodes of level `t`. -/
def Now (g : Csc) (K t x : Nat) : Prop :=
  x < K * g.n ∧ g.PathTo (t - x / g.n) (x % g.n) ∧ ¬ g.PathTo (t + 1 - x / g.n) (x % g.n)

theorem before_succ (h : g.WF) {K t x : Nat} :
    Before g K (t + 1) x ↔ Before g K t x ∨ Now g K t x := by
  unfold Before Now
  constructor
  · rintro ⟨h1, h2⟩
    by_cases hp : g.PathTo (t - x / g.n) (x % g.n)
    · exact .inr ⟨h1, hp, h2⟩
    · exact .inl ⟨h1, hp⟩
  · rintro (⟨h1, h2⟩ | ⟨h1, _, h2⟩)
    · exact ⟨h1, fun hc => h2 (hc.le h (by omega))⟩
    · exact ⟨h1, h2⟩

theorem add_div_mod {n y : Nat} (hn : 0 < n) : (y + n) / n = y / n + 1 ∧ (y + n) % n = y % n :=
  ⟨Nat.add_div_right y hn, Nat.add_mod_right y n⟩

theorem now_shift {K t y : Nat} (hn : 0 < g.n) :
    Now g K (t + 1) (y + g.n) ↔ Now g K t y ∧ y + g.n < K * g.n := by
  unfold Now
  obtain ⟨e1, e2⟩ := add_div_mod (y := y) hn
  rw [e1, e2, show t + 1 - (y / g.n + 1) = t - y / g.n by omega,
    show t + 1 + 1 - (y / g.n + 1) = t + 1 - y / g.n by omega]
  constructor
  · rintro ⟨h1, h2, h3⟩; exact ⟨⟨by omega, h2, h3⟩, h1⟩
  · rintro ⟨⟨_, h2, h3⟩, h1⟩; exact ⟨h1, h2, h3⟩

/-- Invariant of the loop over the levels. -/
structure Inv (g : Csc) (K : Nat) (s : Lv) : Prop where
  core : Core g K (RD g (s.st.levels.take s.st.num)) (s.st.levels.take s.st.num) s.st
  next : s.st.next = 0
  curN : s.curN = s.st.queue.length
  ptrLen : s.ptr.length = K * g.n + 1
  curLe : s.cur ≤ s.st.num
  memD : ∀ x, x ∈ s.st.levels.take s.st.num ↔ Before g K s.cur x
  memQ : ∀ x, x ∈ s.st.queue ↔ Now g K s.cur x
  ptr0 : s.ptr.getD 0 0 = 0
  ptrL : s.ptr.getD s.cur 0 = s.st.num
  strict : ∀ l, l < s.cur → s.ptr.getD l 0 < s.ptr.getD (l + 1) 0
  lvl : ∀ l k, l < s.cur → s.ptr.getD l 0 ≤ k → k < s.ptr.getD (l + 1) 0 →
    Now g K l (s.st.levels.getD k 0)

theorem ptr_le_num {K : Nat} {s : Lv} (hs : Inv g K s) {l : Nat} (hl : l ≤ s.cur) :
    s.ptr.getD l 0 ≤ s.st.num := by
  obtain ⟨d, hd⟩ : ∃ d, l + d = s.cur := ⟨s.cur - l, by omega⟩
  induction d generalizing l with
  | zero => rw [show l = s.cur by omega, hs.ptrL]
  | succ d ih =>
    have := hs.strict l (by omega)
    have := ih (l := l + 1) (by omega) (by omega)
    omega

theorem Inv.room {K : Nat} {s : Lv} (hs : Inv g K s) :
    s.st.num + s.st.queue.length ≤ K * g.n := by
  have h1 := LevelSet.nodup_length_le hs.core.nodup hs.core.lt
  have h2 := hs.core.numD
  rw [List.length_append] at h1
  omega

theorem level_spec (h : g.WF) (hd1 : g.OneDiag) (hdf : g.DiagFirst) {K : Nat} (hK : 0 < K) {s : Lv}
    {deg : List Int} (hdeg : DegOk g K deg) (hs : Inv g K s) (hne : s.st.queue ≠ []) :
    wp (level g.n K g.p g.i deg s) (fun s' => Inv g K s' ∧
      s'.st.num = s.st.num + s.st.queue.length) := by
  have hroom := hs.room
  have hpos : 0 < s.st.queue.length := List.length_pos_iff.2 hne
  have hpl := hs.ptrLen
  have hcur := hs.curLe
  have hn : 0 < g.n := by
    rcases Nat.eq_zero_or_pos g.n with h0 | h0
    · rw [h0, Nat.mul_zero] at hroom; omega
    · exact h0
  unfold level
  rw [rd_getD 0 (by omega)]
  simp only [ok_bind]
  rw [wr_eq (by omega)]
  simp only [ok_bind]
  rw [hs.curN, wp_bind, hs.ptrL]
  have hget : ∀ k, (s.ptr.set (s.cur + 1) (s.st.num + s.st.queue.length)).getD k 0
      = if k = s.cur + 1 then s.st.num + s.st.queue.length else s.ptr.getD k 0 := by
    intro k
    rw [getD_set]
    by_cases hk : k = s.cur + 1
    · rw [if_pos ⟨hk.symm, by omega⟩, if_pos hk]
    · rw [if_neg (by omega), if_neg hk]
  refine wp_mono (pops_spec h hd1 hdf hdeg hs.core hs.next) ?_
  rintro t ⟨f1, f2, f3⟩
  rw [wp_ok]
  have hnum : t.num = s.st.num + s.st.queue.length := by
    rw [f1.numD, List.length_append, ← hs.core.numD]
  have hD : ∀ x, x ∈ s.st.levels.take s.st.num ++ s.st.queue ↔ Before g K (s.cur + 1) x := by
    intro x
    rw [List.mem_append, hs.memD, hs.memQ, before_succ h]
  have hQ : ∀ x, x ∈ t.queue ↔ Now g K (s.cur + 1) x := by
    intro x
    by_cases hx : x < g.n
    · have hd0 : x / g.n = 0 := Nat.div_eq_of_lt hx
      have hm0 : x % g.n = x := Nat.mod_eq_of_lt hx
      have hxK : x < K * g.n := by
        have := Nat.mul_le_mul_right g.n hK
        omega
      have hb : ∀ u, u < g.n → (u ∈ part g.n 0 (s.st.levels.take s.st.num ++ s.st.queue) ↔
          ¬ g.PathTo (s.cur + 1) u) := by
        intro u hu
        rw [mem_part hu, hD, Before, Nat.mul_zero, Nat.add_zero, Nat.div_eq_of_lt hu,
          Nat.mod_eq_of_lt hu, Nat.sub_zero]
        constructor
        · rintro ⟨_, h2⟩; exact h2
        · intro h2
          refine ⟨?_, h2⟩
          have := Nat.mul_le_mul_right g.n hK
          omega
      have hrem : RD g (s.st.levels.take s.st.num ++ s.st.queue) 0 x = 0 ↔
          ¬ g.PathTo (s.cur + 2) x := by
        unfold RD
        rw [Int.natCast_eq_zero, remIn_eq_zero]
        constructor
        · intro h1 hp
          obtain ⟨u, h5, h6⟩ := pathTo_succ.1 hp
          exact (hb u h6.1).1 (h1 u h6) h5
        · intro h1 u hu
          exact (hb u hu.1).2 (fun hp => h1 (.snoc hp hu))
      unfold Now
      rw [hd0, hm0]
      simp only [Nat.sub_zero]
      constructor
      · intro hm
        have hz := f1.zero x hx (List.mem_append_right _ hm)
        refine ⟨hxK, ?_, hrem.1 hz⟩
        by_contra hc
        have hmD : x ∈ s.st.levels.take s.st.num ++ s.st.queue := by
          rw [hD, Before, hd0, hm0]; exact ⟨hxK, hc⟩
        have := f1.nodup
        rw [List.nodup_append] at this
        exact this.2.2 x hmD x hm rfl
      · rintro ⟨_, h2, h3⟩
        by_contra hc
        have hmD : x ∉ s.st.levels.take s.st.num ++ s.st.queue ++ t.queue := by
          rw [List.mem_append, hD, Before, hd0, hm0]
          rintro (h4 | h4)
          · exact h4.2 h2
          · exact hc h4
        exact (f1.open0 x hx hmD).2 (hrem.2 h3)
    · obtain ⟨y, rfl⟩ : ∃ y, x = y + g.n := ⟨x - g.n, by omega⟩
      rw [f3, hs.memQ, now_shift hn]
  have hk : ∀ k, k < t.num → t.levels.getD k 0
      = (s.st.levels.take s.st.num ++ s.st.queue).getD k 0 := by
    intro k hk
    rw [← f1.done, List.getD_eq_getElem?_getD, List.getD_eq_getElem?_getD, List.getElem?_take,
      if_pos hk]
  have hlenD : (s.st.levels.take s.st.num).length = s.st.num := hs.core.numD.symm
  refine ⟨⟨?_, rfl, f2, by simpa using hpl, by dsimp only; omega, ?_, hQ, ?_, ?_, ?_, ?_⟩, hnum⟩
  · dsimp only
    rw [f1.done]
    exact ⟨f1.visLen, f1.inqLen, f1.levLen, f1.done, f1.numD, f1.nodup, f1.lt, f1.inq, f1.link,
      f1.nonneg, f1.zero, f1.open0, f1.high⟩
  · intro x
    dsimp only
    rw [f1.done, hD]
  · dsimp only; rw [hget, if_neg (by omega)]; exact hs.ptr0
  · dsimp only; rw [hget, if_pos rfl, hnum]
  · intro l hl
    dsimp only at hl ⊢
    rw [hget, hget, if_neg (by omega)]
    by_cases hlc : l = s.cur
    · subst hlc
      rw [if_pos rfl, hs.ptrL]; omega
    · rw [if_neg (by omega)]
      exact hs.strict l (by omega)
  · intro l k hl h1 h2
    dsimp only at hl h1 h2 ⊢
    rw [hget, if_neg (by omega)] at h1
    rw [hget] at h2
    by_cases hlc : l = s.cur
    · subst hlc
      rw [if_pos rfl] at h2
      rw [hs.ptrL] at h1
      rw [hk k (by omega), List.getD_append_right _ _ _ _ (by omega)]
      have : k - (s.st.levels.take s.st.num).length < s.st.queue.length := by omega
      rw [← hs.memQ, List.getD_eq_getElem?_getD, List.getElem?_eq_getElem this]
      exact List.getElem_mem this
    · rw [if_neg (by omega)] at h2
      have := ptr_le_num hs (l := l + 1) (by omega)
      rw [hk k (by omega), List.getD_append _ _ _ _ (by omega)]
      have e : (s.st.levels.take s.st.num).getD k 0 = s.st.levels.getD k 0 := by
        rw [List.getD_eq_getElem?_getD, List.getD_eq_getElem?_getD, List.getElem?_take,
          if_pos (by omega)]
      rw [e]
      exact hs.lvl l k (by omega) h1 h2

theorem build_spec (h : g.WF) (hd1 : g.OneDiag) (hdf : g.DiagFirst) {K : Nat} (hK : 0 < K) :
    wp (build g.n g.p g.i K) (fun r => ∃ s, Inv g K s ∧ s.st.queue = [] ∧
      r = (s.cur, s.ptr.take (s.cur + 1), s.st.levels)) := by
  have hnK : g.n ≤ K * g.n := by
    have := Nat.mul_le_mul_right g.n hK
    omega
  unfold build
  rw [if_neg (by omega), wp_bind]
  refine wp_mono (countDegrees_spec h hd1 hdf hK) ?_
  intro deg hdeg
  rw [wp_bind]
  refine wp_mono (initQueue_spec (N := K * g.n) (by rw [hdeg.1]; exact hnK) hnK) ?_
  rintro ⟨dq, inq⟩ ⟨q1, q2, q3, q4⟩
  dsimp only at q1 q2 q3 q4 ⊢
  have hdq : ∀ v, v ∈ dq ↔ v < g.n ∧ g.remIn [] v = 0 := by
    intro v
    rw [q4]
    refine and_congr_right (fun hv => ?_)
    have := hdeg.2 0 v hK hv
    simp at this
    rw [List.getD_eq_getElem?_getD, this]
    omega
  rw [wp_bind]
  refine whileF_wp (Inv g K) (fun s => K * g.n - s.st.num) ?_ _ _ (by dsimp only; omega) ?_
  · intro s hs
    rw [wp_ok]
    by_cases hne : s.st.queue = []
    · simp only [hne, List.isEmpty_nil, Bool.not_true, Bool.false_eq_true, if_false, wp_ok]
      exact ⟨s, hs, hne, rfl⟩
    · have hpos : 0 < s.st.queue.length := List.length_pos_iff.2 hne
      have : (!s.st.queue.isEmpty) = true := by simpa using hne
      rw [this, if_pos rfl]
      have hroom := hs.room
      refine ⟨by omega, wp_mono (level_spec h hd1 hdf hK hdeg hs hne) ?_⟩
      rintro s' ⟨h1, h2⟩
      exact ⟨h1, by omega⟩
  · have hp : ∀ q : Nat, part g.n q [] = [] := fun q => rfl
    refine ⟨?_, rfl, rfl, by simp, Nat.le_refl _, ?_, ?_, ?_, ?_, by intro l hl; dsimp only at hl; omega,
      by intro l k hl; dsimp only at hl; omega⟩
    · dsimp only
      rw [List.take_zero]
      refine ⟨by simp, q2, by simp, by simp, rfl, by simpa using q1, ?_, q3, ?_, ?_, ?_, ?_, ?_⟩
      · intro x hx
        have := (hdq x).1 (by simpa using hx)
        omega
      · intro y hy
        have := (hdq _).1 (by simpa using hy)
        omega
      · intro q v; unfold RD; omega
      · intro v hv hm
        have := (hdq v).1 (by simpa using hm)
        unfold RD
        rw [hp, this.2]; rfl
      · intro v hv hm
        dsimp only at hm ⊢
        rw [List.nil_append, hdq] at hm
        rw [getD_replicate _ _ _ _ (by omega)]
        unfold RD
        rw [hp]
        omega
      · intro q v h1 h2 h3
        dsimp only
        rw [getD_replicate _ _ _ _ (idx_lt h2 h3)]
        unfold RD
        rw [hp]
        simp
    · intro x
      simp only [List.take_zero, List.not_mem_nil, false_iff]
      rintro ⟨h1, h2⟩
      rw [Nat.zero_sub] at h2
      refine h2 (.nil (Nat.mod_lt _ ?_))
      rcases Nat.eq_zero_or_pos g.n with h0 | h0
      · rw [h0] at h1; simp at h1
      · exact h0
    · intro x
      dsimp only
      rw [hdq]
      unfold Now
      constructor
      · rintro ⟨h1, h2⟩
        rw [Nat.div_eq_of_lt h1, Nat.mod_eq_of_lt h1]
        refine ⟨by omega, .nil h1, fun hp => ?_⟩
        rw [remIn_eq_zero] at h2
        obtain ⟨u, _, h5⟩ := pathTo_succ.1 hp
        exact absurd (h2 u h5) (by simp)
      · rintro ⟨h1, h2, h3⟩
        have hx : x < g.n := by
          by_contra hc
          have hn := h2.lt h
          have : 1 ≤ x / g.n := by
            rw [Nat.le_div_iff_mul_le (by omega)]; omega
          rw [show 0 + 1 - x / g.n = 0 by omega] at h3
          exact h3 (.nil hn)
        rw [Nat.div_eq_of_lt hx, Nat.mod_eq_of_lt hx] at h3
        refine ⟨hx, ?_⟩
        rw [remIn_eq_zero]
        intro u hu
        exact absurd (PathTo.snoc (.nil hu.1) hu) h3
    · dsimp only
      rw [getD_replicate _ _ _ _ (by omega)]
    · dsimp only
      rw [getD_replicate _ _ _ _ (by omega)]

end Verif.MLevel
