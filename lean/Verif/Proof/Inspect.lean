import Verif.Spec.Inspect
import Verif.Model.Inspector
import Verif.Proof.SparseConv
import Verif.Proof.LevelSetOk
import Verif.Proof.Paths

/-! # Proofs: `compute_depth`, `find`, `sup2node_gen` -/

namespace Verif.Inspect
open Res Sp LevelSet Csc

variable {V : Type} {A B : Sp V}

theorem mem_coords {r c : Nat} : (r, c) ∈ A.coords ↔ c < A.cols ∧ r ∈ A.colRows c := by
  simp [Sp.coords]

theorem count_coords (A : Sp V) {u : Nat} (hu : u < A.cols) (r : Nat) :
    A.coords.count (r, u) = (A.colRows u).count r := by
  have h2 : ∀ c, ((List.range c).flatMap fun c => (A.colRows c).map fun r => (r, c)).count (r, u)
      = if u < c then (A.colRows u).count r else 0 := by
    intro c
    induction c with
    | zero => rfl
    | succ c ih =>
      rw [List.range_succ, List.flatMap_append, List.count_append, ih, List.flatMap_singleton]
      have h3 : ((A.colRows c).map fun r => (r, c)).count (r, u)
          = if u = c then (A.colRows u).count r else 0 := by
        by_cases e : u = c
        · subst e
          rw [if_pos rfl]
          exact List.count_map_of_injective _ (fun r => (r, u)) (fun a b h => by simpa using h) r
        · rw [if_neg e, List.count_eq_zero]
          simp only [List.mem_map, Prod.mk.injEq, not_exists, not_and]
          intro x _ _ h; exact e h.symm
      rw [h3]
      by_cases e1 : u < c
      · rw [if_pos e1, if_neg (by omega), if_pos (by omega), Nat.add_zero]
      · by_cases e2 : u = c
        · rw [if_neg e1, if_pos e2, if_pos (by omega), Nat.zero_add]
        · rw [if_neg e1, if_neg e2, if_neg (by omega)]
  have := h2 A.cols
  rwa [if_pos hu] at this

/-- The pattern of `B` is that of `A` with rows and columns exchanged. -/
structure Flip (A B : Sp V) : Prop where
  rows : B.rows = A.cols
  cols : B.cols = A.rows
  perm : (B.coords.map Prod.swap).Perm A.coords

theorem Flip.mem (h : Flip A B) {u v : Nat} (hv : v < A.rows) :
    u ∈ B.colRows v ↔ u < A.cols ∧ v ∈ A.colRows u := by
  have e := h.perm.mem_iff (a := (v, u))
  rw [mem_coords, List.mem_map] at e
  rw [← e]
  constructor
  · intro hu; exact ⟨(u, v), mem_coords.2 ⟨by rw [h.cols]; exact hv, hu⟩, rfl⟩
  · rintro ⟨⟨a, b⟩, hab, he⟩
    simp only [Prod.swap_prod_mk, Prod.mk.injEq] at he
    obtain ⟨rfl, rfl⟩ := he
    exact (mem_coords.1 hab).2

theorem Flip.count (h : Flip A B) {u : Nat} (h1 : u < A.rows) (h2 : u < A.cols) :
    (B.colRows u).count u = (A.colRows u).count u := by
  rw [← count_coords B (by rw [h.cols]; exact h1), ← count_coords A h2, ← h.perm.count_eq]
  have := List.count_map_of_injective B.coords Prod.swap Prod.swap_injective (u, u)
  simpa using this.symm

/-- Well-formed storage of the graph of a square matrix. -/
theorem graph_wf (h : A.PatWF) (hs : A.rows = A.cols) : A.graph.WF :=
  ⟨h.plen, h.p0, h.mono, h.bound, fun u hu v hv => by
    have := h.range u hu v hv
    show v < A.cols
    omega⟩

theorem Flip.dep (h : Flip A B) (hA : A.PatWF) (hs : A.rows = A.cols) {u v : Nat} :
    B.graph.Dep u v ↔ A.graph.Dep v u := by
  have hc := h.cols
  have hr := h.rows
  constructor
  · rintro ⟨h1, h2, h3⟩
    have h1' : u < B.cols := h1
    have := (h.mem (u := v) (v := u) (by omega)).1 h2
    exact ⟨this.1, this.2, Ne.symm h3⟩
  · rintro ⟨h1, h2, h3⟩
    have h1' : v < A.cols := h1
    have h4 : u < A.rows := hA.range v h1' u h2
    exact ⟨show u < B.cols by omega, (h.mem h4).2 ⟨h1', h2⟩, Ne.symm h3⟩

/-- Paths against the direction of the edges. -/
theorem pathTo_iff {g f : Csc} (hn : f.n = g.n) (hd : ∀ u v, f.Dep u v ↔ g.Dep v u) {k v : Nat} :
    f.PathTo k v ↔ g.PathFrom k v := by
  constructor
  · intro h
    induction h with
    | nil h => exact .nil (by omega)
    | snoc _ hd' ih => exact .cons ((hd _ _).1 hd') ih
  · intro h
    induction h with
    | nil h => exact .nil (by omega)
    | cons hd' _ ih => exact .snoc ih ((hd _ _).2 hd')

theorem acyclic_iff {g f : Csc} (hd : ∀ u v, f.Dep u v ↔ g.Dep v u) : f.Acyclic ↔ g.Acyclic := by
  have key : ∀ {f g : Csc}, (∀ u v, f.Dep u v ↔ g.Dep v u) → ∀ u v,
      Relation.TransGen f.Dep u v → Relation.TransGen g.Dep v u := by
    intro f g hd u v h
    induction h with
    | single h => exact .single ((hd _ _).1 h)
    | tail _ h ih => exact .head ((hd _ _).1 h) ih
  constructor
  · intro h v hv; exact h v (key (fun u v => (hd v u).symm) v v hv)
  · intro h v hv; exact h v (key hd v v hv)

theorem writeLevels_wp {g : Csc} {L : Nat} {ptr set ntl degrees : List Nat}
    (h : LevelOk g L ptr set ntl) (hd : g.n ≤ degrees.length) :
    wp (writeLevels (L : Int) ptr set degrees) fun d => d.length = degrees.length ∧
      (∀ v, v < g.n → d.getD v 0 = ntl.getD v 0) ∧
      ∀ v, g.n ≤ v → d.getD v 0 = degrees.getD v 0 := by
  unfold writeLevels
  rw [Int.toNat_natCast]
  obtain ⟨I, hI⟩ : ∃ I : Nat → List Nat → Prop, I = fun k d => d.length = degrees.length ∧
      (∀ j, j < k → d.getD (set.getD j 0) 0 = ntl.getD (set.getD j 0) 0) ∧
      ∀ v, g.n ≤ v → d.getD v 0 = degrees.getD v 0 := ⟨_, rfl⟩
  refine forRange_wp' (fun l d => I (ptr.getD l 0) d) (Nat.zero_le _) ?_ ?_ ?_
  · rw [h.ptr0, hI]
    exact ⟨rfl, fun j hj => absurd hj (by omega), fun _ _ => rfl⟩
  · intro l d _ hl hd'
    have hlen := h.ptrLen
    rw [rd_getD 0 (by omega), ok_bind, rd_getD 0 (by omega), ok_bind]
    refine forRange_wp' I (h.strict l hl).le hd' ?_ (fun _ h => h)
    intro j d h1 h2 hj
    have hjn : j < g.n := by have := h.ptr_le (a := l + 1) hl; omega
    have hsl := h.setLen
    have hv := h.set_lt hjn
    rw [hI] at hj ⊢
    obtain ⟨e1, e2, e3⟩ := hj
    rw [rd_getD 0 (by omega), ok_bind, wr_eq (by omega), wp_ok]
    refine ⟨by simpa using e1, fun i hi => ?_, fun v hv' => ?_⟩
    · rw [getD_set]
      by_cases c : set.getD j 0 = set.getD i 0
      · rw [if_pos ⟨c, by omega⟩, ← c]
        exact (h.lvl l j hl h1 h2).symm
      · rw [if_neg (fun x => c x.1)]
        refine e2 i ?_
        have : i ≠ j := fun x => c (by rw [x])
        omega
    · rw [getD_set, if_neg (by omega)]
      exact e3 v hv'
  · intro d hd'
    rw [h.ptrL, hI] at hd'
    obtain ⟨e1, e2, e3⟩ := hd'
    refine ⟨e1, fun v hv => ?_, e3⟩
    obtain ⟨k, hk, rfl⟩ := h.exists_pos hv
    exact e2 k hk

/-! ### Binary search -/

theorem find_found {sup : List Nat} {target nodes : Nat} (hlen : nodes < sup.length)
    (hs : ∀ a b, a ≤ b → b ≤ nodes → sup.getD a 0 ≤ sup.getD b 0) :
    ∀ fuel start stop, stop - start < fuel → start ≤ stop → stop ≤ nodes →
      (∃ k, start ≤ k ∧ k ≤ stop ∧ sup.getD k 0 = target) →
      wp (find sup target fuel start stop) fun r => r ≤ nodes ∧ sup.getD r 0 = target := by
  intro fuel
  induction fuel with
  | zero => intro start stop h; omega
  | succ fuel ih =>
    rintro start stop hf hle hn ⟨k, k1, k2, k3⟩
    unfold find
    by_cases c1 : start = stop
    · have : k = start := by omega
      subst this
      rw [if_pos c1, rd_getD 0 (by omega), ok_bind]
      rw [if_pos k3, ok_bind]
      exact ⟨by omega, k3⟩
    · rw [if_neg c1, ok_bind]
      dsimp only
      by_cases c2 : stop - start = 1
      · rw [if_pos c2, rd_getD 0 (by omega), ok_bind]
        by_cases c3 : sup.getD start 0 = target
        · rw [if_pos c3, ok_bind]
          exact ⟨by omega, c3⟩
        · have : k = stop := by
            rcases Nat.lt_or_ge start k with h | h
            · omega
            · have : k = start := by omega
              subst this; exact absurd k3 c3
          subst this
          rw [if_neg c3, rd_getD 0 (by omega), ok_bind, if_pos k3, ok_bind]
          exact ⟨hn, k3⟩
      · rw [if_neg c2, ok_bind]
        dsimp only
        obtain ⟨m, hm⟩ : ∃ m, m = (stop + start) / 2 := ⟨_, rfl⟩
        have m1 : start < m := by omega
        have m2 : m < stop := by omega
        rw [← hm, rd_getD 0 (by omega), ok_bind]
        by_cases c3 : sup.getD m 0 = target
        · rw [if_pos c3, wp_ok]
          exact ⟨by omega, c3⟩
        · rw [if_neg c3]
          by_cases c4 : target < sup.getD m 0
          · rw [if_pos c4]
            refine ih start m (by omega) (by omega) (by omega) ⟨k, k1, ?_, k3⟩
            by_contra hc
            have := hs m k (by omega) (by omega)
            omega
          · rw [if_neg c4]
            refine ih m stop (by omega) (by omega) (by omega) ⟨k, ?_, k2, k3⟩
            by_contra hc
            have := hs k m (by omega) (by omega)
            omega

theorem find_absent {sup : List Nat} {target nodes : Nat} (hlen : nodes < sup.length)
    (ha : ∀ k, k ≤ nodes → sup.getD k 0 ≠ target) :
    ∀ fuel start stop, start ≤ stop → stop ≤ nodes → find sup target fuel start stop = nofuel := by
  intro fuel
  induction fuel with
  | zero => intros; rfl
  | succ fuel ih =>
    intro start stop hle hn
    have hm := Nat.div_le_of_le_mul (show stop + start ≤ 2 * stop by omega)
    have hm' : start ≤ (stop + start) / 2 := by omega
    unfold find
    by_cases c1 : start = stop
    · rw [if_pos c1, rd_getD 0 (by omega), ok_bind, if_neg (ha _ (by omega)), ok_bind]
      dsimp only
      rw [if_neg (by omega), ok_bind]
      dsimp only
      rw [rd_getD 0 (by omega), ok_bind, if_neg (ha _ (by omega)), ih _ _ hm' (by omega),
        ih _ _ hm hn]
      split <;> rfl
    · rw [if_neg c1, ok_bind]
      dsimp only
      have key : (rd sup ((stop + start) / 2) >>= fun x =>
          if x = target then ok ((stop + start) / 2)
          else if target < x then find sup target fuel start ((stop + start) / 2)
          else find sup target fuel ((stop + start) / 2) stop) = nofuel := by
        rw [rd_getD 0 (by omega), ok_bind, if_neg (ha _ (by omega)), ih _ _ hm' (by omega),
          ih _ _ hm hn]
        split <;> rfl
      by_cases c2 : stop - start = 1
      · rw [if_pos c2, rd_getD 0 (by omega), ok_bind, if_neg (ha _ (by omega)),
          rd_getD 0 (by omega), ok_bind, if_neg (ha _ (by omega)), ok_bind]
        exact key
      · rw [if_neg c2, ok_bind]
        exact key

end Verif.Inspect
