import Verif.Model.Utils
import Verif.Proof.SparseHalf

/-! # dense_to_csc -/

namespace Verif.Util
open Res Sp

/-- Coordinates of a dense matrix, column by column. -/
def cells (rows cols : Nat) : List (Nat × Nat) :=
  (List.range cols).flatMap fun j => (List.range rows).map fun i => (i, j)

theorem mem_cells {rows cols : Nat} {c : Nat × Nat} :
    c ∈ cells rows cols ↔ c.1 < rows ∧ c.2 < cols := by
  unfold cells
  simp only [List.mem_flatMap, List.mem_range, List.mem_map]
  constructor
  · rintro ⟨j, hj, i, hi, rfl⟩; exact ⟨hi, hj⟩
  · rintro ⟨h1, h2⟩; exact ⟨c.2, h2, c.1, h1, rfl⟩

theorem cells_pairwise (rows cols : Nat) :
    (cells rows cols).Pairwise fun a b => a.2 < b.2 ∨ (a.2 = b.2 ∧ a.1 < b.1) := by
  unfold cells
  rw [List.pairwise_flatMap]
  refine ⟨fun j _ => ?_, ?_⟩
  · rw [List.pairwise_map]
    exact List.pairwise_lt_range.imp fun h => .inr ⟨rfl, h⟩
  · refine List.pairwise_lt_range.imp fun {a b} h x hx y hy => ?_
    rw [List.mem_map] at hx hy
    obtain ⟨_, _, rfl⟩ := hx
    obtain ⟨_, _, rfl⟩ := hy
    exact .inl h

theorem forN_eq_forEach {σ : Type} (f : Nat → σ → Res σ) :
    ∀ (c lo : Nat) (s : σ), forN c lo f s = forEach (List.range' lo c) f s := by
  intro c
  induction c with
  | zero => intro lo s; rfl
  | succ c ih =>
    intro lo s
    rw [List.range'_succ]
    show f lo s >>= forN c (lo + 1) f = f lo s >>= forEach _ f
    congr 1
    funext s'
    exact ih (lo + 1) s'

theorem forRange_eq_forEach {σ : Type} (f : Nat → σ → Res σ) (n : Nat) (s : σ) :
    forRange 0 n f s = forEach (List.range n) f s := by
  rw [forRange, forN_eq_forEach, Nat.sub_zero, List.range_eq_range']

theorem forEach_map {α β σ : Type} (l : List α) (g : α → β) (f : β → σ → Res σ) (s : σ) :
    forEach (l.map g) f s = forEach l (fun a => f (g a)) s := by
  induction l generalizing s with
  | nil => rfl
  | cons a l ih =>
    show f (g a) s >>= forEach (l.map g) f = f (g a) s >>= forEach l _
    congr 1
    funext s'
    exact ih s'

theorem forEach_flatMap {α β σ : Type} (l : List α) (g : α → List β) (f : β → σ → Res σ) (s : σ) :
    forEach (l.flatMap g) f s = forEach l (fun a => forEach (g a) f) s := by
  induction l generalizing s with
  | nil => rfl
  | cons a l ih =>
    rw [List.flatMap_cons, forEach_append]
    show forEach (g a) f s >>= forEach (l.flatMap g) f = forEach (g a) f s >>= forEach l _
    congr 1
    funext s'
    exact ih s'

theorem nested_eq {σ : Type} (f : Nat → Nat → σ → Res σ) (rows cols : Nat) (s : σ) :
    forRange 0 cols (fun j s => forRange 0 rows (f j) s) s
      = forEach (cells rows cols) (fun c => f c.2 c.1) s := by
  unfold cells
  rw [forRange_eq_forEach, forEach_flatMap]
  congr 1
  funext j s
  rw [forRange_eq_forEach, forEach_map]

/-- Rule for the nested loops. -/
theorem nested_wp {σ : Type} {f : Nat → Nat → σ → Res σ} {rows cols : Nat} {s : σ}
    (I : List (Nat × Nat) → σ → Prop) (h0 : I [] s)
    (hs : ∀ pre i j post s, cells rows cols = pre ++ (i, j) :: post → I pre s →
      wp (f j i s) (I (pre ++ [(i, j)]))) :
    wp (forRange 0 cols (fun j s => forRange 0 rows (f j) s) s) (I (cells rows cols)) := by
  rw [nested_eq]
  have := forEach_wp I (f := fun c : Nat × Nat => f c.2 c.1) (cells rows cols) [] s h0
  refine this ?_
  intro p a q s hpre hI
  exact hs p a.1 a.2 q s hpre hI

variable {V : Type} [Zero V]

/-- `val[i][j]` for indices in range. -/
def dval (val : List (List V)) (c : Nat × Nat) : V := (val.getD c.1 []).getD c.2 0

theorem rd2_eq {val : List (List V)} {rows cols i j : Nat} (hl : rows ≤ val.length)
    (hc : ∀ r ∈ val.take rows, cols ≤ r.length) (hi : i < rows) (hj : j < cols) :
    rd2 val i j = ok (dval val (i, j)) := by
  unfold rd2
  have hil : i < val.length := by omega
  have : cols ≤ (val.getD i []).length := by
    apply hc
    rw [List.getD_eq_getElem?_getD, List.getElem?_eq_getElem hil]
    exact List.mem_take_iff_getElem.2 ⟨i, by omega, rfl⟩
  rw [rd_getD [] hil, ok_bind, rd_getD 0 (by omega)]
  rfl

theorem denseToCsc_wp (dbg : Bool) (nz : V → Bool) {rows cols : Nat} {val : List (List V)}
    (hl : rows ≤ val.length) (hc : ∀ r ∈ val.take rows, cols ≤ r.length)
    (hn : 0 < cols) :
    wp (denseToCsc dbg nz rows cols val) fun B => B.rows = rows ∧ B.cols = cols ∧ B.Exact ∧
      FromItems false B Prod.snd Prod.fst (dval val)
        ((cells rows cols).filter fun c => nz (dval val c)) := by
  unfold denseToCsc
  rw [wp_bind]
  set kept := fun l : List (Nat × Nat) => l.filter fun c => nz (dval val c) with hkept
  have hkapp : ∀ pre c, kept (pre ++ [c]) = if nz (dval val c) then kept pre ++ [c] else kept pre := by
    intro pre c
    simp only [hkept, List.filter_append]
    by_cases h : nz (dval val c)
    · rw [if_pos h]; simp [h]
    · rw [if_neg h]; simp [h]
  have hcnt := nested_wp (rows := rows) (cols := cols)
    (f := fun j i (s : Nat × List Nat) => do
      let v ← rd2 val i j
      if nz v then do
        let c ← rd s.2 j
        let cs ← wr s.2 j (c + 1)
        ok (s.1 + 1, cs)
      else ok s) (s := (0, List.replicate cols 0))
    (fun pre s => s = ((kept pre).length, cntArr Prod.snd cols (kept pre)))
    (by rw [show kept [] = [] from rfl, cntArr_nil]; rfl) ?_
  · refine wp_mono hcnt ?_
    rintro s rfl
    set items := kept (cells rows cols) with hitems
    have hk : ∀ a ∈ items, a.2 < cols := fun a ha =>
      (mem_cells.1 (List.mem_filter.1 ha).1).2
    have hr : ∀ a ∈ items, a.1 < rows := fun a ha =>
      (mem_cells.1 (List.mem_filter.1 ha).1).1
    dsimp only
    rw [wp_bind]
    have hp := prefix_loop_wp Prod.snd (m := cols) items
      (p0 := List.replicate (if cols = 0 then 0 else cols + 1) 0)
      (by rw [if_neg (by omega)]; simp) (by
        rw [if_neg (by omega)]; exact getD_replicate _ _ _ _ (by omega))
      (f := fun k p => do
        let a ← rd p k
        let b ← rd (cntArr Prod.snd cols items) k
        wr p (k + 1) (a + b)) (lo := 0) (fun k p _ => rfl)
    simp only [Nat.add_zero] at hp
    rw [hp, wp_ok, ptrArr_rd _ _ (le_refl _), below_all _ _ _ hk]
    have htail : wp (forRange 0 cols (fun j t => forRange 0 rows
        (fun i (t : Nat × List Nat × List V) => do
          let v ← rd2 val i j
          if nz v then do
            let is ← wr t.2.1 t.1 i
            let xs ← wr t.2.2 t.1 v
            ok (t.1 + 1, is, xs)
          else ok t) t) (0, List.replicate items.length 0, List.replicate items.length 0))
        (fun t => t.1 = items.length ∧ t.2.1 = items.map Prod.fst ∧
          t.2.2 = items.map (dval val)) := by
      have := nested_wp (rows := rows) (cols := cols)
        (f := fun j i (t : Nat × List Nat × List V) => do
          let v ← rd2 val i j
          if nz v then do
            let is ← wr t.2.1 t.1 i
            let xs ← wr t.2.2 t.1 v
            ok (t.1 + 1, is, xs)
          else ok t) (s := (0, List.replicate items.length 0, List.replicate items.length 0))
        (fun pre t => t.1 = (kept pre).length ∧ t.2.1.length = items.length ∧
          t.2.2.length = items.length ∧ t.2.1.take t.1 = (kept pre).map Prod.fst ∧
          t.2.2.take t.1 = (kept pre).map (dval val))
        ⟨rfl, by simp, by simp, rfl, rfl⟩ ?_
      · refine wp_mono this ?_
        rintro t ⟨h1, h2, h3, h4, h5⟩
        refine ⟨h1, ?_, ?_⟩
        · rwa [h1, ← hitems, ← h2, List.take_length] at h4
        · rwa [h1, ← hitems, ← h3, List.take_length] at h5
      · rintro pre i j post t he ⟨h1, h2, h3, h4, h5⟩
        obtain ⟨hi, hj⟩ := mem_cells.1 (show (i, j) ∈ cells rows cols by rw [he]; simp)
        dsimp only at hi hj ⊢
        rw [rd2_eq hl hc hi hj, ok_bind, hkapp]
        by_cases hz : nz (dval val (i, j))
        · have hlt : (kept pre).length < items.length := by
            rw [hitems, he]
            simp only [hkept, List.filter_append, List.length_append]
            rw [List.filter_cons, if_pos hz, List.length_cons]
            omega
          rw [if_pos hz, if_pos hz, wr_eq (by omega), ok_bind, wr_eq (by omega), ok_bind, wp_ok]
          refine ⟨by simp [h1], by simpa using h2, by simpa using h3, ?_, ?_⟩
          · rw [take_set_succ _ (by omega), h4, List.map_append]; rfl
          · rw [take_set_succ _ (by omega), h5, List.map_append]; rfl
        · rw [if_neg hz, if_neg hz, wp_ok]
          exact ⟨h1, h2, h3, h4, h5⟩
    have hsort : items.Pairwise fun a b => a.2 ≤ b.2 :=
      ((cells_pairwise rows cols).filter _).imp fun h => by omega
    have hfin : wp (forRange 0 cols (fun j t => forRange 0 rows
        (fun i (t : Nat × List Nat × List V) => do
          let v ← rd2 val i j
          if nz v then do
            let is ← wr t.2.1 t.1 i
            let xs ← wr t.2.2 t.1 v
            ok (t.1 + 1, is, xs)
          else ok t) t) (0, List.replicate items.length 0, List.replicate items.length 0))
        (fun t => wp (ok (⟨rows, cols, ptrArr Prod.snd cols items, t.2.1, t.2.2⟩ : Sp V))
          fun B => B.rows = rows ∧ B.cols = cols ∧ B.Exact ∧
            FromItems false B Prod.snd Prod.fst (dval val) items) := by
      refine wp_mono htail ?_
      rintro t ⟨h1, h2, h3⟩
      rw [wp_ok]
      refine ⟨rfl, rfl, ⟨?_, ?_⟩, ⟨rfl, hk, hr, ?_, fun _ => ?_⟩⟩
      · show t.2.1.length = _
        rw [h2, ptrArr_getD _ _ (le_refl _), below_all _ _ _ hk, List.length_map]
      · show t.2.2.length = _
        rw [h3, ptrArr_getD _ _ (le_refl _), below_all _ _ _ hk, List.length_map]
      · show t.2.1.take _ = _
        rw [bucket_sorted_all hsort hk, h2, List.take_of_length_le (by simp)]
      · show t.2.2.take _ = _
        rw [bucket_sorted_all hsort hk, h3, List.take_of_length_le (by simp)]
    cases dbg
    · rw [if_neg (by simp), wp_bind]
      exact hfin
    · rw [if_pos rfl, ok_bind, if_neg (by simp), ok_bind, wp_bind]
      exact hfin
  · rintro pre i j post s he rfl
    obtain ⟨hi, hj⟩ := mem_cells.1 (show (i, j) ∈ cells rows cols by rw [he]; simp)
    dsimp only at hi hj ⊢
    rw [rd2_eq hl hc hi hj, ok_bind, hkapp]
    by_cases hz : nz (dval val (i, j))
    · rw [if_pos hz, if_pos hz, cntArr_rd _ _ hj, ok_bind,
        cntArr_wr Prod.snd (kept pre) (a := (i, j)) hj, ok_bind, wp_ok]
      simp
    · rw [if_neg hz, if_neg hz, wp_ok]

end Verif.Util
