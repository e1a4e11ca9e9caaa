import Verif.Proof.Kahn
import Verif.Proof.Inspect
import Verif.Proof.Dense
import Verif.Proof.GroupDag

/-!
# Proofs about `level_set_bn` and `bcsc_csc_bcsc_levelset`
-/

namespace Verif.FLevel
open Res MLevel Kahn Csc Hdagg

/-! ## Supernodes -/

theorem supersFirst_spec {n nodes : Nat} {super : List Nat} (hp : PtrOk super nodes n) :
    wp (supersFirst n nodes super) (fun sup => sup.length = n ∧ ∀ v t, t < nodes →
      super.getD t 0 ≤ v → v < super.getD (t + 1) 0 → sup.getD v 0 = super.getD t 0) := by
  have hpl := hp.len
  unfold supersFirst
  rw [wp_bind]
  obtain ⟨P, hP⟩ : ∃ P : Nat → List Nat → Prop, P = fun c s => ∀ v t, t < nodes → v < c →
    super.getD t 0 ≤ v → v < super.getD (t + 1) 0 → s.getD v 0 = super.getD t 0 := ⟨_, rfl⟩
  refine forRange_wp' (fun i (st : List Nat × Nat) => st.1.length = n ∧ st.2 = super.getD i 0 ∧
    P st.2 st.1) (by omega) ⟨by simp, hp.d0.symm, by rw [hP]; intro v t _ hv; simp at hv⟩ ?_ ?_
  · rintro i ⟨s, c⟩ _ hi ⟨h1, h2, h3⟩
    dsimp only at h1 h2 h3 ⊢
    have hab := hp.dmono hi
    have hb := hp.dle (b := i + 1) (by omega)
    rw [rd_getD 0 (show i < super.length by omega), ok_bind,
      rd_getD 0 (show i + 1 < super.length by omega), ok_bind]
    refine whileF_wp (fun (st : List Nat × Nat) => st.1.length = n ∧ super.getD i 0 ≤ st.2 ∧
      st.2 ≤ super.getD (i + 1) 0 ∧ P st.2 st.1)
      (fun st => super.getD (i + 1) 0 - st.2) ?_ _ _ (by show _ - c ≤ _; omega)
      ⟨h1, by show _ ≤ c; omega, by show c ≤ _; omega, h3⟩
    rintro ⟨s, c⟩ ⟨a1, a2, a3, a4⟩
    dsimp only at a1 a2 a3 a4 ⊢
    rw [wp_ok]
    by_cases hc : super.getD i 0 ≤ c ∧ c < super.getD (i + 1) 0
    · rw [if_pos (by simpa using hc)]
      refine ⟨by omega, ?_⟩
      rw [wr_eq (by omega), ok_bind, wp_ok]
      refine ⟨⟨by simp [a1], by dsimp only; omega, by dsimp only; omega, ?_⟩, by dsimp only; omega⟩
      rw [hP] at a4 ⊢
      intro v t ht hv v1 v2
      dsimp only at hv ⊢
      rw [getD_set]
      by_cases e : c = v
      · rw [if_pos ⟨e, by omega⟩]
        rw [hp.block_unique (k := v) hi ht (by omega) (by omega) v1 v2]
      · rw [if_neg (fun x => e x.1)]
        exact a4 v t ht (by omega) v1 v2
    · rw [if_neg (by simpa using hc)]
      exact ⟨a1, by omega, a4⟩
  · rintro ⟨s, c⟩ ⟨h1, h2, h3⟩
    rw [wp_ok]
    refine ⟨h1, fun v t ht v1 v2 => ?_⟩
    dsimp only at h2 h3
    rw [hP] at h3
    refine h3 v t ht ?_ v1 v2
    have := hp.dle (b := t + 1) (by omega)
    rw [h2, hp.dlast]; omega

/-! ## Loops over columns -/

theorem forEach_rd_map {σ : Type} {sup : List Nat} (f : Nat → σ → Res σ) :
    ∀ (l : List Nat) (s : σ), (∀ r ∈ l, r < sup.length) →
      forEach l (fun r s => do let x ← rd sup r; f x s) s = forEach (l.map (fun r => sup.getD r 0)) f s := by
  intro l s h
  rw [Util.forEach_map]
  induction l generalizing s with
  | nil => rfl
  | cons a l ih =>
    show (rd sup a >>= fun x => f x s) >>= _ = f (sup.getD a 0) s >>= _
    rw [rd_getD 0 (h a (by simp)), ok_bind]
    congr 1
    funext s'
    exact ih s' (fun r hr => h r (List.mem_cons_of_mem _ hr))

variable {g : Csc}

/-- The supernodes of the rows of column `c` without its first entry. -/
def belowHeads (g : Csc) (sup : List Nat) (c : Nat) : List Nat := ((g.col c).tail).map (fun r => sup.getD r 0)

/-- The supernodes of the rows of column `c`, from the last to the first. -/
def allHeads (g : Csc) (sup : List Nat) (c : Nat) : List Nat := ((g.col c).reverse).map (fun r => sup.getD r 0)

/-- The supernodes of the rows of the columns `a, …, b - 1`. -/
def blockHeads (g : Csc) (sup : List Nat) (a b : Nat) : List Nat :=
  (slice g.i (g.ptr a) (g.ptr b)).map (fun r => sup.getD r 0)

theorem tail_eq_slice {c : Nat} :
    (g.col c).tail = slice g.i (g.ptr c + 1) (g.ptr (c + 1)) := by
  unfold slice
  rw [← List.drop_one, col, List.drop_take, List.drop_drop]
  congr 1

theorem overBelow_eq (h : g.WF) {sup : List Nat} (hs : sup.length = g.n) {c : Nat} (hc : c < g.n) {σ : Type}
    (f : Nat → σ → Res σ) (s : σ) :
    overBelow g.p g.i sup c f s = forEach (belowHeads g sup c) f s := by
  unfold overBelow belowHeads
  rw [h.rd_p (by omega), ok_bind, h.rd_p (by omega), ok_bind]
  have hle := h.ptr_le (a := c + 1) (by omega)
  have hb := h.bound
  have hr : ∀ r ∈ (g.col c).tail, r < sup.length := by
    intro r hr
    rw [hs]; exact h.range c hc r (List.mem_of_mem_tail hr)
  rw [← forEach_rd_map f _ _ hr, tail_eq_slice]
  by_cases hlt : g.ptr c + 1 ≤ g.ptr (c + 1)
  · exact forRange_slice g.i (fun r s => do let x ← rd sup r; f x s) s hlt (by omega)
  · rw [forRange_empty _ _ (by omega)]
    unfold slice
    rw [show g.ptr (c + 1) - (g.ptr c + 1) = 0 by omega]
    rfl

theorem mem_blockSlice (h : g.WF) {a b r : Nat} (hab : a ≤ b) (hbn : b ≤ g.n) :
    r ∈ slice g.i (g.ptr a) (g.ptr b) ↔ ∃ j, a ≤ j ∧ j < b ∧ r ∈ g.col j := by
  induction b with
  | zero =>
    obtain rfl : a = 0 := by omega
    rw [slice_self]
    simp
  | succ b ih =>
    rcases Nat.eq_or_lt_of_le hab with rfl | hlt
    · rw [slice_self]
      constructor
      · intro h; simp at h
      · rintro ⟨j, h1, h2, _⟩; omega
    · rw [← slice_append (h.mono_le (show a ≤ b by omega) (by omega)) (h.mono b (by omega)), List.mem_append,
        ih (by omega) (by omega)]
      have : slice g.i (g.ptr b) (g.ptr (b + 1)) = g.col b := rfl
      rw [this]
      constructor
      · rintro (⟨j, h1, h2, h3⟩ | h1)
        · exact ⟨j, h1, by omega, h3⟩
        · exact ⟨b, by omega, by omega, h1⟩
      · rintro ⟨j, h1, h2, h3⟩
        by_cases hj : j = b
        · exact .inr (hj ▸ h3)
        · exact .inl ⟨j, h1, by omega, h3⟩

theorem overBlock_eq (h : g.WF) {sup : List Nat} (hs : sup.length = g.n) {a b : Nat} (hab : a ≤ b)
    (hbn : b ≤ g.n) {σ : Type} (f : Nat → σ → Res σ) (s : σ) :
    overBlock g.p g.i sup a b f s = forEach (blockHeads g sup a b) f s := by
  unfold overBlock blockHeads
  rw [h.rd_p (by omega), ok_bind, h.rd_p (by omega), ok_bind]
  have hle := h.ptr_le (a := b) (by omega)
  have hb := h.bound
  have hm := h.mono_le hab hbn
  have hr : ∀ r ∈ slice g.i (g.ptr a) (g.ptr b), r < sup.length := by
    intro r hr
    obtain ⟨j, h1, h2, h3⟩ := (mem_blockSlice h hab hbn).1 hr
    rw [hs]
    exact h.range j (by omega) r h3
  rw [← forEach_rd_map f _ _ hr]
  exact forRange_slice g.i (fun r s => do let x ← rd sup r; f x s) s hm (by omega)

theorem overAll_eq (h : g.WF) {sup : List Nat} (hs : sup.length = g.n) {c : Nat} (hc : c < g.n) {σ : Type}
    (f : Nat → σ → Res σ) (s : σ) :
    overAll g.p g.i sup c f s = forEach (allHeads g sup c) f s := by
  unfold overAll allHeads
  rw [h.rd_p (by omega), ok_bind, h.rd_p (by omega), ok_bind]
  have hle := h.ptr_le (a := c + 1) (by omega)
  have hb := h.bound
  have hm := h.mono c hc
  have hl := h.col_length hc
  have hr : ∀ r ∈ (g.col c).reverse, r < sup.length := by
    intro r hr
    rw [hs]; exact h.range c hc r (List.mem_reverse.1 hr)
  rw [← forEach_rd_map f _ _ hr]
  unfold forRange
  rw [Nat.sub_zero, forN_slice (g.col c).reverse _ (fun r s => do let x ← rd sup r; f x s) _ 0 _
    (by simp; omega)]
  · rw [List.drop_zero, List.take_of_length_le (by simp; omega)]
  · intro j a s _ hj ha
    have hj' : j < g.ptr (c + 1) - g.ptr c := by omega
    rw [List.getElem?_reverse (by omega), hl] at ha
    have : g.i[g.ptr (c + 1) - 1 - j]? = some a := by
      rw [col, List.getElem?_take, if_pos (by omega), List.getElem?_drop] at ha
      rw [← ha]; congr 1; omega
    have hlt : g.ptr (c + 1) - 1 - j < g.i.length := by omega
    rw [rd_getD 0 hlt, ok_bind, List.getD_eq_getElem?_getD, this]
    rfl

/-! ## Counting -/

theorem incs_spec {l : List Nat} {deg : List Int} (h : ∀ x ∈ l, x < deg.length) :
    wp (forEach l inc deg) (fun d => d.length = deg.length ∧
      ∀ x, d.getD x 0 = deg.getD x 0 + (l.count x : Int)) := by
  refine wp_mono (forEach_wp (fun (pre : List Nat) (d : List Int) => d.length = deg.length ∧
      ∀ x, d.getD x 0 = deg.getD x 0 + (pre.count x : Int)) l [] _ ⟨rfl, by simp⟩ ?_) (by simp)
  rintro p a t d heq ⟨h1, h2⟩
  rw [List.nil_append] at heq
  have ha := h a (by rw [heq]; simp)
  unfold inc
  rw [rd_getD 0 (by omega), ok_bind, wr_eq (by omega), wp_ok]
  refine ⟨by simpa using h1, fun x => ?_⟩
  rw [getD_set, List.count_append]
  by_cases e : a = x
  · subst e
    rw [if_pos ⟨rfl, by omega⟩, h2]
    simp; omega
  · rw [if_neg (fun h => e h.1), h2]
    simp [e]

theorem count_add {l : List Nat} {c k : Nat} : (l.map (· + k)).count (c + k) = l.count c :=
  List.count_map_of_injective l (· + k) (fun a b h => by simpa using h) c

theorem sum_filter_self {l : List Nat} (hl : l.Nodup) {cols : Nat → List Nat} {c : Nat} (hc : c ∈ l) :
    (l.map (fun u => ((cols u).filter (fun x => decide (u ≠ x))).count c)).sum + (cols c).count c
      = (l.map (fun u => (cols u).count c)).sum := by
  rw [sum_split hl hc, sum_split hl (f := fun u => (cols u).count c) hc]
  have h1 : ((cols c).filter (fun x => decide (c ≠ x))).count c = 0 := by
    rw [List.count_eq_zero, List.mem_filter]; simp
  rw [h1, Nat.zero_add, Nat.add_comm]
  congr 2
  refine List.map_congr_left (fun u hu => ?_)
  rw [List.mem_filter] at hu
  have : u ≠ c := by simpa using hu.2
  exact List.count_filter (by simpa using this)

theorem initQueue_spec {N : Nat} {heads deg} {super : List Nat} {nodes : Nat}
    (hh : super.take nodes = heads) (hn : nodes ≤ super.length) (hnd : heads.Nodup)
    (hlt : ∀ c ∈ heads, c < N) (hd : deg.length = N) :
    wp (initQueue nodes super deg (List.replicate N false)) (fun r => r.1.Nodup ∧ r.2.length = N ∧
      (∀ x, x < N → (r.2.getD x false = true ↔ x ∈ r.1)) ∧ ∀ x, x ∈ r.1 ↔ x ∈ heads ∧ deg.getD x 0 = 0) := by
  have hlen : heads.length = nodes := by rw [← hh]; simp; omega
  unfold initQueue
  refine forRange_wp' (fun i (r : List Nat × List Bool) => r.1.Nodup ∧ r.2.length = N ∧
      (∀ x, x < N → (r.2.getD x false = true ↔ x ∈ r.1)) ∧
      ∀ x, x ∈ r.1 ↔ x ∈ heads.take i ∧ deg.getD x 0 = 0) (by omega)
    ⟨by simp, by simp, ?_, by simp⟩ ?_ ?_
  · intro x hx
    rw [getD_replicate _ _ _ _ hx]; simp
  · rintro i ⟨q, inq⟩ _ hi ⟨h1, h2, h3, h4⟩
    dsimp only at h1 h2 h3 h4 ⊢
    have hget : super[i]? = some (heads[i]'(by omega)) := by
      rw [← List.getElem?_eq_getElem, ← hh, List.getElem?_take, if_pos hi]
    obtain ⟨v, hv⟩ : ∃ v, heads[i]'(by omega) = v := ⟨_, rfl⟩
    rw [hv] at hget
    have hvm : v ∈ heads := by rw [← hv]; exact List.getElem_mem _
    have htake : heads.take (i + 1) = heads.take i ++ [v] := by
      rw [List.take_add_one, List.getElem?_eq_getElem (by omega), hv]; rfl
    have hvn : v ∉ heads.take i := by
      have : (heads.take (i + 1)).Nodup := hnd.sublist (List.take_sublist _ _)
      rw [htake, List.nodup_append] at this
      exact fun h => this.2.2 v h v (by simp) rfl
    have hvlt := hlt v hvm
    have hvq : v ∉ q := fun h => hvn ((h4 v).1 h).1
    rw [rd_getD 0 (by omega), ok_bind, List.getD_eq_getElem?_getD, hget, Option.getD_some,
      rd_getD 0 (by omega), ok_bind]
    by_cases h0 : deg.getD v 0 = 0
    · rw [if_pos h0, wr_eq (by omega), ok_bind, wp_ok]
      refine ⟨?_, by simpa using h2, fun x hx => ?_, fun x => ?_⟩
      · dsimp only
        rw [List.nodup_append]
        refine ⟨h1, by simp, ?_⟩
        rintro a ha b hb rfl
        rw [List.mem_singleton] at hb
        exact hvq (hb ▸ ha)
      · dsimp only
        rw [getD_set, List.mem_append, List.mem_singleton]
        by_cases e : v = x
        · subst e; rw [if_pos ⟨rfl, by omega⟩]; simp
        · rw [if_neg (fun h => e h.1), h3 x hx]
          exact ⟨.inl, fun h => h.resolve_right (fun h => e h.symm)⟩
      · dsimp only
        rw [htake, List.mem_append, List.mem_append, List.mem_singleton, h4]
        constructor
        · rintro (h | rfl)
          · exact ⟨.inl h.1, h.2⟩
          · exact ⟨.inr rfl, h0⟩
        · rintro ⟨h | h, h5⟩
          · exact .inl ⟨h, h5⟩
          · exact .inr h
    · rw [if_neg h0, wp_ok]
      refine ⟨h1, h2, h3, fun x => ?_⟩
      dsimp only
      rw [h4, htake, List.mem_append, List.mem_singleton]
      constructor
      · rintro ⟨h, h5⟩; exact ⟨.inl h, h5⟩
      · rintro ⟨h | rfl, h5⟩
        · exact ⟨h, h5⟩
        · exact absurd h5 h0
  · rintro ⟨q, inq⟩ ⟨h1, h2, h3, h4⟩
    rw [List.take_of_length_le (by omega)] at h4
    exact ⟨h1, h2, h3, h4⟩

end Verif.FLevel
