import Verif.Model.FusedLevels
import Verif.Proof.MultiLevels
import Verif.Proof.Slices
import Verif.Spec.FusedLevels

/-!
# Level sets by counting visits

Common part of the proofs about `level_set_bn` and `bcsc_csc_bcsc_levelset`.  A node is either counted (it is
put into the queue when all edges into it have been followed) or pushed (it is put into the queue when one
given node is taken out).
-/

namespace Verif.Kahn
open Res MLevel FLevel

/-- Number of edges into `x` from nodes that are not in `D`. -/
def rem (V : List Nat) (out : Nat → List Nat) (D : List Nat) (x : Nat) : Nat :=
  ((V.filter (fun u => decide (u ∉ D))).map (fun u => (out u).count x)).sum

/-- Number of edges from `x` to `x`. -/
def self (out : Nat → List Nat) (x : Nat) : Nat := (out x).count x

theorem sum_count_eq_zero {l : List Nat} {out : Nat → List Nat} {x : Nat} :
    (l.map (fun u => (out u).count x)).sum = 0 ↔ ∀ u ∈ l, x ∉ out u := by
  rw [List.sum_eq_zero_iff]
  simp only [List.mem_map, forall_exists_index, and_imp, forall_apply_eq_imp_iff₂, List.count_eq_zero]

theorem sum_split {l : List Nat} (hl : l.Nodup) {f : Nat → Nat} {c : Nat} (hc : c ∈ l) :
    (l.map f).sum = f c + ((l.filter (fun u => decide (u ≠ c))).map f).sum := by
  have hp := List.perm_cons_erase hc
  rw [(hp.map f).sum_eq, List.map_cons, List.sum_cons, hl.erase_eq_filter]
  have : (fun u => u != c) = (fun u => decide (u ≠ c)) := by
    funext u
    by_cases h : u = c <;> simp [h]
  rw [this]

variable {V : List Nat} {out nx : Nat → List Nat}

theorem rem_pop (hV : V.Nodup) {D : List Nat} {c x : Nat} (hc : c ∈ V) (hcD : c ∉ D) :
    rem V out D x = rem V out (D ++ [c]) x + (out c).count x := by
  unfold rem
  rw [sum_split (hV.filter _) (c := c) (List.mem_filter.2 ⟨hc, by simpa using hcD⟩), List.filter_filter,
    Nat.add_comm]
  congr 4
  funext u
  simp only [List.mem_append, List.mem_singleton, not_or, ne_eq, ← Bool.decide_and, decide_eq_decide]
  exact and_comm

theorem rem_self (hV : V.Nodup) {D : List Nat} {x : Nat} (hx : x ∈ V) (hxD : x ∉ D) :
    self out x ≤ rem V out D x := by
  rw [rem_pop hV hx hxD]; exact Nat.le_add_left _ _

theorem rem_eq_self (hV : V.Nodup) {D : List Nat} {x : Nat} (hx : x ∈ V) (hxD : x ∉ D) :
    rem V out D x = self out x ↔ ∀ u ∈ V, u ≠ x → x ∈ out u → u ∈ D := by
  have h1 := rem_pop (out := out) (x := x) hV hx hxD
  have h2 : rem V out (D ++ [x]) x = 0 ↔ ∀ u ∈ V, u ≠ x → x ∈ out u → u ∈ D := by
    unfold rem
    rw [sum_count_eq_zero]
    constructor
    · intro h u hu hux hxu
      by_contra hc
      exact h u (List.mem_filter.2 ⟨hu, by simpa using ⟨hc, hux⟩⟩) hxu
    · intro h u hu hxu
      rw [List.mem_filter] at hu
      have := hu.2
      simp only [List.mem_append, List.mem_singleton, not_or, decide_eq_true_eq] at this
      exact this.1 (h u hu.1 this.2 hxu)
  rw [← h2]
  unfold self
  omega

/-- What is known about the nodes and the degrees. -/
structure Setup (V : List Nat) (out nx : Nat → List Nat) (cnt : Nat → Prop) (N : Nat) (deg : List Int) :
    Prop where
  nodup : V.Nodup
  lt : ∀ x ∈ V, x < N
  outV : ∀ u ∈ V, ∀ x ∈ out u, x ∈ V
  nxV : ∀ u ∈ V, ∀ x ∈ nx u, x ∈ V ∧ ¬ cnt x
  nxNodup : ∀ u ∈ V, (nx u).Nodup
  nxInj : ∀ u ∈ V, ∀ w ∈ V, ∀ x, x ∈ nx u → x ∈ nx w → u = w
  degLen : deg.length = N
  degC : ∀ x ∈ V, cnt x → deg.getD x 0 + self out x = rem V out [] x
  degP : ∀ x ∈ V, ¬ cnt x → (rem V out [] x : Int) + 1 < deg.getD x 0

/-- The invariant inside a level.  `D`: the nodes taken out so far; `R x`: the edges into `x` that have not
been followed; `Q0`: the first queue. -/
structure Core (V : List Nat) (out nx : Nat → List Nat) (cnt : Nat → Prop) (N S : Nat) (deg : List Int)
    (Q0 : List Nat) (R : Nat → Nat) (D : List Nat) (s : St) : Prop where
  visLen : s.vis.length = N
  inqLen : s.inq.length = N
  levLen : s.levels.length = S
  done : s.levels.take s.num = D
  numD : s.num = D.length
  nodup : (D ++ s.queue).Nodup
  memV : ∀ x ∈ D ++ s.queue, x ∈ V
  inq : ∀ x, x < N → (s.inq.getD x false = true ↔ x ∈ s.queue)
  link : ∀ x ∈ D ++ s.queue, ¬ cnt x → ∃ u ∈ D, x ∈ nx u
  src : ∀ x ∈ D ++ s.queue, cnt x → deg.getD x 0 = 0 → x ∈ Q0
  queued : ∀ x ∈ s.queue, cnt x → R x = self out x ∧ deg.getD x 0 ≤ s.vis.getD x 0
  past : ∀ x ∈ D, cnt x → deg.getD x 0 < s.vis.getD x 0
  op : ∀ x ∈ V, cnt x → x ∉ D ++ s.queue → 0 ≤ s.vis.getD x 0 ∧
    s.vis.getD x 0 + R x = deg.getD x 0 + self out x ∧ (deg.getD x 0 ≠ 0 → self out x < R x)
  hi : ∀ x ∈ V, ¬ cnt x → s.vis.getD x 0 + R x ≤ rem V out [] x + if x ∈ D then 1 else 0

variable {cnt : Nat → Prop} {N S : Nat} {deg : List Int} {Q0 : List Nat}

theorem visit_spec (hS : Setup V out nx cnt N deg) {R R' : Nat → Nat} {D : List Nat} {s : St} {a : Nat}
    (ha : a ∈ V) (hs : Core V out nx cnt N S deg Q0 R D s) (hR : 0 < R a) (hRD : a ∉ D → self out a < R a)
    (hR' : ∀ v, R' v = R v - if v = a then 1 else 0) :
    wp (visit deg a s) (fun s' => Core V out nx cnt N S deg Q0 R' D s' ∧
      ∃ nw, s'.queue = s.queue ++ nw ∧ s'.next = s.next + nw.length ∧ ∀ x ∈ nw, cnt x) := by
  have hlt := hS.lt a ha
  have hv := hs.visLen
  have hi := hs.inqLen
  have hd := hS.degLen
  have hRa : R' a = R a - 1 := by rw [hR', if_pos rfl]
  have hRn : ∀ v, v ≠ a → R' v = R v := fun v h => by rw [hR', if_neg h, Nat.sub_zero]
  unfold visit
  rw [rd_getD 0 (by omega), ok_bind, wr_eq (by omega), ok_bind, rd_getD 0 (by omega), ok_bind,
    rd_getD false (by omega), ok_bind]
  have hget : ∀ x, (s.vis.set a (s.vis.getD a 0 + 1)).getD x 0
      = if x = a then s.vis.getD a 0 + 1 else s.vis.getD x 0 := by
    intro x
    rw [getD_set]
    by_cases h : a = x
    · rw [if_pos ⟨h, by omega⟩, if_pos h.symm]
    · rw [if_neg (fun x => h x.1), if_neg (fun x => h x.symm)]
  have hhi : ∀ x ∈ V, ¬ cnt x → (s.vis.set a (s.vis.getD a 0 + 1)).getD x 0 + R' x
      ≤ rem V out [] x + if x ∈ D then 1 else 0 := by
    intro x hx hc
    have := hs.hi x hx hc
    rw [hget]
    by_cases h : x = a
    · subst h
      rw [if_pos rfl, hRa]; omega
    · rw [if_neg h, hRn x h]; exact this
  have hqueued : ∀ x ∈ s.queue, cnt x → R' x = self out x ∧
      deg.getD x 0 ≤ (s.vis.set a (s.vis.getD a 0 + 1)).getD x 0 := by
    intro x hx hc
    have h1 := hs.queued x hx hc
    by_cases h : x = a
    · subst h
      have hxD : x ∉ D := by
        have := hs.nodup
        rw [List.nodup_append] at this
        exact fun hc => this.2.2 x hc x hx rfl
      have := hRD hxD
      omega
    · rw [hRn x h, hget, if_neg h]; exact h1
  have hpast : ∀ x ∈ D, cnt x → deg.getD x 0 < (s.vis.set a (s.vis.getD a 0 + 1)).getD x 0 := by
    intro x hx hc
    have := hs.past x hx hc
    rw [hget]
    split
    · rename_i h; subst h; omega
    · exact this
  by_cases hcond : s.vis.getD a 0 + 1 = deg.getD a 0 ∧ s.inq.getD a false = false
  · rw [if_pos hcond, wr_eq (by omega), ok_bind, wp_ok]
    obtain ⟨c1, c2⟩ := hcond
    have hnq : a ∉ s.queue := by
      rw [← hs.inq a hlt, c2]; simp
    have hca : cnt a := by
      by_contra hc
      have h1 := hs.hi a ha hc
      have h2 := hS.degP a ha hc
      have : (if a ∈ D then (1 : Int) else 0) ≤ 1 := by split <;> omega
      omega
    have hnD : a ∉ D := fun h => by have := hs.past a h hca; omega
    have hnm : a ∉ D ++ s.queue := by
      rw [List.mem_append]; exact fun h => h.elim hnD hnq
    have hop := hs.op a ha hca hnm
    refine ⟨⟨by simpa using hv, by simpa using hi, hs.levLen, hs.done, hs.numD, ?_, ?_, ?_, ?_, ?_, ?_, hpast,
      ?_, hhi⟩, [a], rfl, rfl, by simpa using hca⟩
    · dsimp only
      rw [← List.append_assoc, List.nodup_append]
      refine ⟨hs.nodup, by simp, ?_⟩
      rintro x hx y hy rfl
      rw [List.mem_singleton] at hy
      exact hnm (hy ▸ hx)
    · intro x hx
      dsimp only at hx
      rw [← List.append_assoc, List.mem_append, List.mem_singleton] at hx
      rcases hx with hx | rfl
      · exact hs.memV x hx
      · exact ha
    · intro x hx
      dsimp only
      rw [getD_set, List.mem_append, List.mem_singleton]
      by_cases hxa : a = x
      · subst hxa
        rw [if_pos ⟨rfl, by omega⟩]; simp
      · rw [if_neg (fun h => hxa h.1), hs.inq x hx]
        exact ⟨.inl, fun h => h.resolve_right (fun h => hxa h.symm)⟩
    · intro x hx hc
      dsimp only at hx
      rw [← List.append_assoc, List.mem_append, List.mem_singleton] at hx
      rcases hx with hx | rfl
      · exact hs.link x hx hc
      · exact absurd hca hc
    · intro x hx hc h0
      dsimp only at hx
      rw [← List.append_assoc, List.mem_append, List.mem_singleton] at hx
      rcases hx with hx | rfl
      · exact hs.src x hx hc h0
      · omega
    · intro x hx hc
      dsimp only at hx
      rw [List.mem_append, List.mem_singleton] at hx
      rcases hx with hx | rfl
      · exact hqueued x hx hc
      · dsimp only; rw [hRa, hget, if_pos rfl]; omega
    · intro x hx hc hm
      dsimp only at hm ⊢
      rw [← List.append_assoc, List.mem_append, List.mem_singleton, not_or] at hm
      rw [hget, if_neg hm.2, hRn x hm.2]
      exact hs.op x hx hc hm.1
  · rw [if_neg hcond, wp_ok]
    refine ⟨⟨by simpa using hv, hi, hs.levLen, hs.done, hs.numD, hs.nodup, hs.memV, hs.inq, hs.link, hs.src,
      hqueued, hpast, ?_, hhi⟩, [], by simp, rfl, by simp⟩
    intro x hx hc hm
    dsimp only at hm ⊢
    have hop := hs.op x hx hc hm
    rw [hget]
    by_cases h : x = a
    · subst h
      rw [if_pos rfl, hRa]
      have hnq : s.inq.getD x false = false := by
        have := (hs.inq x hlt).not.2 (fun h => hm (List.mem_append_right _ h))
        simpa using this
      have hne : s.vis.getD x 0 + 1 ≠ deg.getD x 0 := fun h => hcond ⟨h, hnq⟩
      have := hRD (fun h => hm (List.mem_append_left _ h))
      exact ⟨by omega, by omega, fun h => by omega⟩
    · rw [if_neg h, hRn x h]; exact hop

/-- What one iteration of the loop over a level does, in terms of `out` and `nx`. -/
def popG (out nx : Nat → List Nat) (deg : List Int) (s : St) : Res St :=
  match s.queue with
  | [] => Res.ub
  | x :: q => do
    let c ← rd s.vis x
    let vis ← wr s.vis x (c + 1)
    let inq ← wr s.inq x false
    let levels ← wr s.levels s.num x
    let s ← forEach (out x) (fun y s => visit deg y s) ⟨q, vis, inq, levels, s.num + 1, s.next⟩
    forEach (nx x) (fun y s => do
      let inq ← wr s.inq y true
      ok { s with queue := s.queue ++ [y], inq := inq, next := s.next + 1 }) s

theorem room {R : Nat → Nat} {D : List Nat} {s : St}
    (hs : Core V out nx cnt N S deg Q0 R D s) : s.num + s.queue.length ≤ V.length := by
  rw [hs.numD, ← List.length_append]
  exact (List.subperm_of_subset hs.nodup hs.memV).length_le

theorem popG_spec (hS : Setup V out nx cnt N deg) (hSV : V.length ≤ S) {D : List Nat} {s : St}
    (hs : Core V out nx cnt N S deg Q0 (rem V out D) D s) {x : Nat} {Q : List Nat} (hx : s.queue = x :: Q) :
    wp (popG out nx deg s) (fun s' =>
      Core V out nx cnt N S deg Q0 (rem V out (D ++ [x])) (D ++ [x]) s' ∧
      ∃ nw, s'.queue = Q ++ nw ∧ s'.next = s.next + nw.length ∧
        ∀ y, ¬ cnt y → (y ∈ nw ↔ y ∈ nx x)) := by
  have hxm : x ∈ D ++ s.queue := by rw [hx]; simp
  have hxV := hs.memV x hxm
  have hxlt := hS.lt x hxV
  have hxD : x ∉ D := by
    have := hs.nodup
    rw [hx, List.nodup_append] at this
    intro hc
    exact this.2.2 x hc x (by simp) rfl
  have hxQ : x ∉ Q := by
    have := hs.nodup
    rw [hx, List.nodup_append] at this
    exact (List.nodup_cons.1 this.2.1).1
  have hD1 : ∀ y, y ∈ D ++ [x] ++ Q ↔ y ∈ D ++ s.queue := by
    intro y
    rw [hx]; simp [List.append_assoc]
  have hv := hs.visLen
  have hi := hs.inqLen
  have hl := hs.levLen
  have hnum := hs.numD
  have hnumlt : s.num < S := by
    have := room hs
    rw [hx, List.length_cons] at this
    omega
  unfold popG
  rw [hx]
  dsimp only
  rw [rd_getD 0 (by omega), ok_bind, wr_eq (by omega), ok_bind, wr_eq (by omega), ok_bind,
    wr_eq (by omega), ok_bind]
  have hc0 : Core V out nx cnt N S deg Q0 (rem V out D) (D ++ [x]) ⟨Q,
      s.vis.set x (s.vis.getD x 0 + 1), s.inq.set x false, s.levels.set s.num x, s.num + 1, s.next⟩ := by
    have hget : ∀ y, (s.vis.set x (s.vis.getD x 0 + 1)).getD y 0
        = if y = x then s.vis.getD x 0 + 1 else s.vis.getD y 0 := by
      intro y
      rw [getD_set]
      by_cases h : x = y
      · rw [if_pos ⟨h, by omega⟩, if_pos h.symm]
      · rw [if_neg (fun x => h x.1), if_neg (fun x => h x.symm)]
    refine ⟨by simpa using hv, by simpa using hi, by simpa using hl, ?_, by simp [hnum], ?_, ?_, ?_,
      ?_, ?_, ?_, ?_, ?_, ?_⟩
    · dsimp only
      rw [LevelSet.take_set_succ _ _ _ (by omega), hs.done]
    · have := hs.nodup
      rw [hx] at this
      simpa using this
    · intro y hy
      exact hs.memV y ((hD1 y).1 hy)
    · intro y hy
      dsimp only
      rw [getD_set]
      by_cases hya : x = y
      · subst hya
        rw [if_pos ⟨rfl, by omega⟩]
        exact ⟨fun h => by simp at h, fun h => absurd h hxQ⟩
      · rw [if_neg (fun h => hya h.1), hs.inq y hy, hx, List.mem_cons]
        exact ⟨fun h => h.resolve_left (fun h => hya h.symm), .inr⟩
    · intro y hy hc
      obtain ⟨u, h1, h2⟩ := hs.link y ((hD1 _).1 hy) hc
      exact ⟨u, List.mem_append_left _ h1, h2⟩
    · intro y hy
      exact hs.src y ((hD1 _).1 hy)
    · intro y hy hc
      dsimp only at hy ⊢
      rw [hget, if_neg (fun (h : y = x) => hxQ (h ▸ hy))]
      exact hs.queued y (by rw [hx]; exact List.mem_cons_of_mem _ hy) hc
    · intro y hy hc
      dsimp only
      rw [hget]
      rw [List.mem_append, List.mem_singleton] at hy
      by_cases h : y = x
      · subst h
        rw [if_pos rfl]
        have := (hs.queued y (by rw [hx]; simp) hc).2
        omega
      · rw [if_neg h]
        exact hs.past y (hy.resolve_right h) hc
    · intro y hy hc hm
      dsimp only at hm ⊢
      rw [hD1] at hm
      rw [hget, if_neg (fun (h : y = x) => hm (h ▸ hxm))]
      exact hs.op y hy hc hm
    · intro y hy hc
      dsimp only
      have h1 := hs.hi y hy hc
      rw [hget]
      by_cases h : y = x
      · subst h
        rw [if_neg hxD] at h1
        rw [if_pos rfl, if_pos (by simp)]
        omega
      · rw [if_neg h]
        have : y ∈ D ++ [x] ↔ y ∈ D := by
          rw [List.mem_append, List.mem_singleton]
          exact ⟨fun h' => h'.resolve_right h, .inl⟩
        simp only [this]
        exact h1
  rw [wp_bind]
  refine wp_mono (forEach_wp (fun (pre : List Nat) (s' : St) =>
    Core V out nx cnt N S deg Q0 (fun w => rem V out D w - pre.count w) (D ++ [x]) s' ∧
    ∃ nw, s'.queue = Q ++ nw ∧ s'.next = s.next + nw.length ∧ ∀ x ∈ nw, cnt x) (out x) [] _
      ⟨by simpa using hc0, [], by simp, rfl, by simp⟩ ?_) ?_
  · rintro p a t s' heq ⟨h1, nw, h2, h3, h4⟩
    rw [List.nil_append] at heq
    have ha := hS.outV x hxV a (by rw [heq]; simp)
    have hge : (out x).count a = p.count a + 1 + t.count a := by
      rw [heq, List.count_append, List.count_cons_self]; omega
    have h5 := rem_pop (out := out) (x := a) hS.nodup hxV hxD
    refine wp_mono (visit_spec hS ha h1 (R' := fun w => rem V out D w - (p ++ [a]).count w) ?_ ?_ ?_) ?_
    · omega
    · intro haD
      have := rem_self (out := out) hS.nodup ha haD
      omega
    · intro w

      rw [List.count_append]
      by_cases hw : w = a
      · simp [hw]; omega
      · simp [hw, Ne.symm hw]
    · rintro s'' ⟨e1, nw', e2, e3, e4⟩
      refine ⟨e1, nw ++ nw', by rw [e2, h2, List.append_assoc], by rw [e3, h3]; simp; omega, ?_⟩
      intro x hx
      rcases List.mem_append.1 hx with hx | hx
      · exact h4 x hx
      · exact e4 x hx
  · rintro s' ⟨h1, nw, h2, h3, h4⟩
    rw [List.nil_append] at h1
    have hrem : (fun w => rem V out D w - (out x).count w) = rem V out (D ++ [x]) := by
      funext w
      rw [rem_pop hS.nodup hxV hxD]; omega
    rw [hrem] at h1
    refine wp_mono (forEach_wp (fun (pre : List Nat) (s'' : St) =>
      Core V out nx cnt N S deg Q0 (rem V out (D ++ [x])) (D ++ [x]) s'' ∧
      s''.queue = Q ++ nw ++ pre ∧ s''.next = s.next + nw.length + pre.length) (nx x) [] _
        ⟨h1, by simpa using h2, by simpa using h3⟩ ?_) ?_
    · rintro p a t s'' heq ⟨f1, f2, f3⟩
      rw [List.nil_append] at heq
      have ham : a ∈ nx x := by rw [heq]; simp
      obtain ⟨haV, hac⟩ := hS.nxV x hxV a ham
      have halt := hS.lt a haV
      have hap : a ∉ p := by
        have := hS.nxNodup x hxV
        rw [heq, List.nodup_append] at this
        exact fun h => this.2.2 a h a (by simp) rfl
      have hnm : a ∉ D ++ [x] ++ s''.queue := by
        rw [f2, ← List.append_assoc, ← List.append_assoc, List.mem_append, List.mem_append, hD1]
        rintro ((h | h) | h)
        · obtain ⟨u, h5, h6⟩ := hs.link a h hac
          exact hxD (hS.nxInj u (hs.memV u (List.mem_append_left _ h5)) x hxV a h6 ham ▸ h5)
        · exact hac (h4 a h)
        · exact hap h
      have hi' := f1.inqLen
      rw [wr_eq (by omega), ok_bind, wp_ok]
      refine ⟨⟨f1.visLen, by simpa using hi', f1.levLen, f1.done, f1.numD, ?_, ?_, ?_, ?_, ?_, ?_, f1.past,
        ?_, f1.hi⟩, by simp [f2], by simp [f3]; omega⟩
      · dsimp only
        rw [← List.append_assoc, List.nodup_append]
        refine ⟨f1.nodup, by simp, ?_⟩
        rintro y hy z hz rfl
        rw [List.mem_singleton] at hz
        exact hnm (hz ▸ hy)
      · intro y hy
        dsimp only at hy
        rw [← List.append_assoc, List.mem_append, List.mem_singleton] at hy
        rcases hy with hy | rfl
        · exact f1.memV y hy
        · exact haV
      · intro y hy
        dsimp only
        rw [getD_set, List.mem_append, List.mem_singleton]
        by_cases hya : a = y
        · subst hya
          rw [if_pos ⟨rfl, by omega⟩]; simp
        · rw [if_neg (fun h => hya h.1), f1.inq y hy]
          exact ⟨.inl, fun h => h.resolve_right (fun h => hya h.symm)⟩
      · intro y hy hc
        dsimp only at hy
        rw [← List.append_assoc, List.mem_append, List.mem_singleton] at hy
        rcases hy with hy | rfl
        · exact f1.link y hy hc
        · exact ⟨x, by simp, ham⟩
      · intro y hy hc h0
        dsimp only at hy
        rw [← List.append_assoc, List.mem_append, List.mem_singleton] at hy
        rcases hy with hy | rfl
        · exact f1.src y hy hc h0
        · exact absurd hc hac
      · intro y hy hc
        dsimp only at hy ⊢
        rw [List.mem_append, List.mem_singleton] at hy
        rcases hy with hy | rfl
        · exact f1.queued y hy hc
        · exact absurd hc hac
      · intro y hy hc hm
        dsimp only at hm ⊢
        rw [← List.append_assoc, List.mem_append, not_or] at hm
        exact f1.op y hy hc hm.1
    · rintro s'' ⟨f1, f2, f3⟩
      rw [List.nil_append] at f2 f3
      refine ⟨f1, nw ++ nx x, by rw [f2, List.append_assoc], by rw [f3]; simp; omega, fun y hy => ?_⟩
      rw [List.mem_append]
      exact ⟨fun h => h.resolve_left (fun h => hy (h4 y h)), .inr⟩

theorem pops_spec (hS : Setup V out nx cnt N deg) (hSV : V.length ≤ S) {pop : St → Res St}
    (hpop : ∀ s x q, s.queue = x :: q → x ∈ V → pop s = popG out nx deg s) {D : List Nat} {s : St}
    (hs : Core V out nx cnt N S deg Q0 (rem V out D) D s) (hn0 : s.next = 0) :
    wp (forRange 0 s.queue.length (fun _ t => pop t) s) (fun t =>
      Core V out nx cnt N S deg Q0 (rem V out (D ++ s.queue)) (D ++ s.queue) t ∧ t.next = t.queue.length ∧
        ∀ y, ¬ cnt y → (y ∈ t.queue ↔ ∃ x ∈ s.queue, y ∈ nx x)) := by
  refine forRange_wp' (fun i (t : St) =>
      Core V out nx cnt N S deg Q0 (rem V out (D ++ s.queue.take i)) (D ++ s.queue.take i) t ∧
      ∃ nq, t.queue = s.queue.drop i ++ nq ∧ t.next = nq.length ∧
        ∀ y, ¬ cnt y → (y ∈ nq ↔ ∃ x ∈ s.queue.take i, y ∈ nx x))
    (Nat.zero_le _) ⟨by simpa using hs, [], by simp, by simpa using hn0, by simp⟩ ?_ ?_
  · rintro i t _ hi ⟨h1, nq, h2, h3, h4⟩
    have e1 : t.queue = s.queue[i] :: (s.queue.drop (i + 1) ++ nq) := by
      rw [h2, List.drop_eq_getElem_cons hi]; rfl
    have e2 : s.queue.take (i + 1) = s.queue.take i ++ [s.queue[i]] := by
      rw [List.take_add_one, List.getElem?_eq_getElem hi]; rfl
    rw [hpop t _ _ e1 (h1.memV _ (List.mem_append_right _ (by rw [e1]; simp)))]
    refine wp_mono (popG_spec hS hSV h1 e1) ?_
    rintro t' ⟨f1, nw, f2, f3, f4⟩
    rw [e2, ← List.append_assoc]
    refine ⟨f1, nq ++ nw, by rw [f2, List.append_assoc], by rw [f3, h3]; simp, fun y hy => ?_⟩
    rw [List.mem_append, h4 y hy, f4 y hy]
    constructor
    · rintro (⟨u, a, b⟩ | a)
      · exact ⟨u, List.mem_append_left _ a, b⟩
      · exact ⟨_, List.mem_append_right _ (by simp), a⟩
    · rintro ⟨u, a, b⟩
      rcases List.mem_append.1 a with a | a
      · exact .inl ⟨u, a, b⟩
      · rw [List.mem_singleton] at a
        exact .inr (a ▸ b)
  · rintro t ⟨h1, nq, h2, h3, h4⟩
    rw [List.take_length] at h1 h4
    rw [List.drop_length, List.nil_append] at h2
    subst h2
    exact ⟨h1, h3, h4⟩

/-- `B t x`: node `x` is listed before level `t`. -/
structure Before (V : List Nat) (out nx : Nat → List Nat) (cnt : Nat → Prop) (deg : List Int) (Q0 : List Nat)
    (B : Nat → Nat → Prop) : Prop where
  zero : ∀ x, ¬ B 0 x
  one : ∀ x, x ∈ Q0 ↔ B 1 x
  mono : ∀ t x, B t x → B (t + 1) x
  memV : ∀ t x, B t x → x ∈ V
  counted : ∀ t, ∀ x ∈ V, cnt x → deg.getD x 0 ≠ 0 →
    (B (t + 1) x ↔ ∀ u ∈ V, u ≠ x → x ∈ out u → B t u)
  source : ∀ t, ∀ x ∈ V, cnt x → deg.getD x 0 = 0 → B t x → x ∈ Q0
  pushed : ∀ t, ∀ x ∈ V, ¬ cnt x → (B (t + 1) x ↔ ∃ u ∈ V, x ∈ nx u ∧ B t u)

/-- Invariant of the loop over the levels. -/
structure Inv (V : List Nat) (out nx : Nat → List Nat) (cnt : Nat → Prop) (N P S : Nat) (deg : List Int)
    (Q0 : List Nat) (B : Nat → Nat → Prop) (s : Lv) : Prop where
  core : Core V out nx cnt N S deg Q0 (rem V out (s.st.levels.take s.st.num)) (s.st.levels.take s.st.num) s.st
  next : s.st.next = 0
  curN : s.curN = s.st.queue.length
  ptrLen : s.ptr.length = P
  curLe : s.cur ≤ s.st.num
  memD : ∀ x, x ∈ s.st.levels.take s.st.num ↔ B s.cur x
  memQ : ∀ x, x ∈ s.st.queue ↔ B (s.cur + 1) x ∧ ¬ B s.cur x
  ptr0 : s.ptr.getD 0 0 = 0
  ptrL : s.ptr.getD s.cur 0 = s.st.num
  strict : ∀ l, l < s.cur → s.ptr.getD l 0 < s.ptr.getD (l + 1) 0
  lvl : ∀ l k, l < s.cur → s.ptr.getD l 0 ≤ k → k < s.ptr.getD (l + 1) 0 →
    B (l + 1) (s.st.levels.getD k 0) ∧ ¬ B l (s.st.levels.getD k 0)

variable {B : Nat → Nat → Prop} {P : Nat}

theorem ptr_le_num {s : Lv} (hs : Inv V out nx cnt N P S deg Q0 B s) {l : Nat} (hl : l ≤ s.cur) :
    s.ptr.getD l 0 ≤ s.st.num := by
  obtain ⟨d, hd⟩ : ∃ d, l + d = s.cur := ⟨s.cur - l, by omega⟩
  induction d generalizing l with
  | zero => rw [show l = s.cur by omega, hs.ptrL]
  | succ d ih =>
    have := hs.strict l (by omega)
    have := ih (l := l + 1) (by omega) (by omega)
    omega

theorem level_spec (hS : Setup V out nx cnt N deg) (hSV : V.length ≤ S) (hPV : V.length < P)
    {pop : St → Res St} (hpop : ∀ s x q, s.queue = x :: q → x ∈ V → pop s = popG out nx deg s)
    (hB : Before V out nx cnt deg Q0 B) {s : Lv} (hs : Inv V out nx cnt N P S deg Q0 B s)
    (hne : s.st.queue ≠ []) :
    wp (FLevel.level pop s) (fun s' => Inv V out nx cnt N P S deg Q0 B s' ∧
      s'.st.num = s.st.num + s.st.queue.length) := by
  have hroom := room hs.core
  have hpos : 0 < s.st.queue.length := List.length_pos_iff.2 hne
  have hpl := hs.ptrLen
  have hcur := hs.curLe
  unfold FLevel.level
  rw [rd_getD 0 (by omega), ok_bind, wr_eq (by omega), ok_bind, hs.curN, wp_bind, hs.ptrL]
  have hget : ∀ k, (s.ptr.set (s.cur + 1) (s.st.num + s.st.queue.length)).getD k 0
      = if k = s.cur + 1 then s.st.num + s.st.queue.length else s.ptr.getD k 0 := by
    intro k
    rw [getD_set]
    by_cases hk : k = s.cur + 1
    · rw [if_pos ⟨hk.symm, by omega⟩, if_pos hk]
    · rw [if_neg (by omega), if_neg hk]
  refine wp_mono (pops_spec hS hSV hpop hs.core hs.next) ?_
  rintro t ⟨f1, f2, f3⟩
  rw [wp_ok]
  have hnum : t.num = s.st.num + s.st.queue.length := by
    rw [f1.numD, List.length_append, ← hs.core.numD]
  have hD : ∀ x, x ∈ s.st.levels.take s.st.num ++ s.st.queue ↔ B (s.cur + 1) x := by
    intro x
    rw [List.mem_append, hs.memD, hs.memQ]
    constructor
    · rintro (h | h)
      · exact hB.mono _ _ h
      · exact h.1
    · intro h
      by_cases h' : B s.cur x
      · exact .inl h'
      · exact .inr ⟨h, h'⟩
  have hmono1 : ∀ t x, B 1 x → B (t + 1) x := by
    intro t x h
    induction t with
    | zero => exact h
    | succ t ih => exact hB.mono _ _ ih
  have hdis : ∀ x ∈ t.queue, ¬ B (s.cur + 1) x := by
    intro x hx hb
    have := f1.nodup
    rw [List.nodup_append] at this
    exact this.2.2 x ((hD x).2 hb) x hx rfl
  have hQ : ∀ x, x ∈ t.queue ↔ B (s.cur + 1 + 1) x ∧ ¬ B (s.cur + 1) x := by
    intro x
    by_cases hxV : x ∈ V
    · by_cases hc : cnt x
      · by_cases h0 : deg.getD x 0 = 0
        · have hno : ∀ t, B (t + 1) x → B (s.cur + 1) x := fun t hb =>
            hmono1 _ _ ((hB.one x).1 (hB.source _ x hxV hc h0 hb))
          constructor
          · intro hx
            exact absurd (hmono1 _ _ ((hB.one x).1 (f1.src x (List.mem_append_right _ hx) hc h0))) (hdis x hx)
          · rintro ⟨h1, h2⟩
            exact absurd (hno _ h1) h2
        · have hrem : ¬ B (s.cur + 1) x →
              (rem V out (s.st.levels.take s.st.num ++ s.st.queue) x = self out x ↔ B (s.cur + 1 + 1) x) := by
            intro hn
            rw [rem_eq_self hS.nodup hxV (fun h => hn ((hD x).1 h)), hB.counted _ x hxV hc h0]
            simp only [hD]
          constructor
          · intro hx
            exact ⟨(hrem (hdis x hx)).1 (f1.queued x hx hc).1, hdis x hx⟩
          · rintro ⟨h1, h2⟩
            by_contra hx
            have := (f1.op x hxV hc (by
              rw [List.mem_append]; exact fun h => h.elim (fun h => h2 ((hD x).1 h)) hx)).2.2 h0
            rw [(hrem h2).2 h1] at this
            omega
      · rw [f3 x hc, hB.pushed _ x hxV hc, hB.pushed _ x hxV hc]
        constructor
        · rintro ⟨u, h1, h2⟩
          obtain ⟨h3, h4⟩ := (hs.memQ u).1 h1
          have hu := hB.memV _ _ h3
          refine ⟨⟨u, hu, h2, h3⟩, ?_⟩
          rintro ⟨w, h5, h6, h7⟩
          exact h4 (hS.nxInj w h5 u hu x h6 h2 ▸ h7)
        · rintro ⟨⟨u, h1, h2, h3⟩, h4⟩
          exact ⟨u, (hs.memQ u).2 ⟨h3, fun h => h4 ⟨u, h1, h2, h⟩⟩, h2⟩
    · constructor
      · intro hx; exact absurd (f1.memV x (List.mem_append_right _ hx)) hxV
      · rintro ⟨h, _⟩; exact absurd (hB.memV _ _ h) hxV
  have hk : ∀ k, k < t.num → t.levels.getD k 0
      = (s.st.levels.take s.st.num ++ s.st.queue).getD k 0 := by
    intro k hk
    rw [← f1.done, List.getD_eq_getElem?_getD, List.getD_eq_getElem?_getD, List.getElem?_take,
      if_pos hk]
  have hlenD : (s.st.levels.take s.st.num).length = s.st.num := hs.core.numD.symm
  refine ⟨⟨?_, rfl, f2, by simpa using hpl, by dsimp only; omega, ?_, hQ, ?_, ?_, ?_, ?_⟩, hnum⟩
  · dsimp only
    rw [f1.done]
    exact ⟨f1.visLen, f1.inqLen, f1.levLen, f1.done, f1.numD, f1.nodup, f1.memV, f1.inq, f1.link,
      f1.src, f1.queued, f1.past, f1.op, f1.hi⟩
  · intro x
    dsimp only
    rw [f1.done, hD]
  · dsimp only; rw [hget, if_neg (by omega)]; exact hs.ptr0
  · dsimp only; rw [hget, if_pos rfl, hnum]
  · intro l hl
    dsimp only at hl ⊢
    rw [hget, hget, if_neg (by omega)]
    by_cases hlc : l = s.cur
    · subst hlc
      rw [if_pos rfl, hs.ptrL]; omega
    · rw [if_neg (by omega)]
      exact hs.strict l (by omega)
  · intro l k hl h1 h2
    dsimp only at hl h1 h2 ⊢
    rw [hget, if_neg (by omega)] at h1
    rw [hget] at h2
    by_cases hlc : l = s.cur
    · subst hlc
      rw [if_pos rfl] at h2
      rw [hs.ptrL] at h1
      rw [hk k (by omega), List.getD_append_right _ _ _ _ (by omega)]
      have : k - (s.st.levels.take s.st.num).length < s.st.queue.length := by omega
      rw [← hs.memQ, List.getD_eq_getElem?_getD, List.getElem?_eq_getElem this]
      exact List.getElem_mem this
    · rw [if_neg (by omega)] at h2
      have := ptr_le_num hs (l := l + 1) (by omega)
      rw [hk k (by omega), List.getD_append _ _ _ _ (by omega)]
      have e : (s.st.levels.take s.st.num).getD k 0 = s.st.levels.getD k 0 := by
        rw [List.getD_eq_getElem?_getD, List.getD_eq_getElem?_getD, List.getElem?_take,
          if_pos (by omega)]
      rw [e]
      exact hs.lvl l k (by omega) h1 h2

/-- The loop ends, and level `l` lists exactly the nodes `x` with `B (l + 1) x` but not `B l x`. -/
theorem run_spec (hS : Setup V out nx cnt N deg) (hSV : V.length ≤ S) (hPV : V.length < P)
    {pop : St → Res St} (hpop : ∀ s x q, s.queue = x :: q → x ∈ V → pop s = popG out nx deg s)
    (hB : Before V out nx cnt deg Q0 B) {inq : List Bool} (hQ : Q0.Nodup) (hi : inq.length = N)
    (hiq : ∀ x, x < N → (inq.getD x false = true ↔ x ∈ Q0))
    (hQ0 : ∀ x ∈ Q0, x ∈ V ∧ cnt x ∧ deg.getD x 0 = 0) :
    wp (run N P S (Q0, inq) pop) (fun r => ∃ s, Inv V out nx cnt N P S deg Q0 B s ∧ s.st.queue = [] ∧
      r = (s.cur, s.ptr.take (s.cur + 1), s.st.levels)) := by
  have hVN : V.length ≤ N := LevelSet.nodup_length_le hS.nodup hS.lt
  unfold run
  rw [wp_bind]
  refine whileF_wp (Inv V out nx cnt N P S deg Q0 B) (fun s => V.length - s.st.num) ?_ _ _
    (by dsimp only; omega) ?_
  · intro s hs
    rw [wp_ok]
    by_cases hne : s.st.queue = []
    · simp only [hne, List.isEmpty_nil, Bool.not_true, Bool.false_eq_true, if_false, wp_ok]
      exact ⟨s, hs, hne, rfl⟩
    · have hpos : 0 < s.st.queue.length := List.length_pos_iff.2 hne
      have : (!s.st.queue.isEmpty) = true := by simpa using hne
      rw [this, if_pos rfl]
      have hroom := room hs.core
      refine ⟨by omega, wp_mono (level_spec hS hSV hPV hpop hB hs hne) ?_⟩
      rintro s' ⟨h1, h2⟩
      exact ⟨h1, by omega⟩
  · have hv : ∀ x ∈ V, (List.replicate N (0 : Int)).getD x 0 = 0 := fun x hx => getD_replicate _ _ _ _ (hS.lt x hx)
    refine ⟨?_, rfl, rfl, by simp, Nat.le_refl _, ?_, ?_, ?_, ?_, by intro l hl; dsimp only at hl; omega,
      by intro l k hl; dsimp only at hl; omega⟩
    · dsimp only
      rw [List.take_zero]
      refine ⟨by simp, hi, by simp, by simp, rfl, by simpa using hQ, ?_, hiq, ?_, ?_, ?_, by simp, ?_, ?_⟩
      · intro x hx; exact (hQ0 x (by simpa using hx)).1
      · intro x hx hc; exact absurd (hQ0 x (by simpa using hx)).2.1 hc
      · intro x hx _ _; simpa using hx
      · intro x hx hc
        obtain ⟨h1, h2, h3⟩ := hQ0 x hx
        have := hS.degC x h1 h2
        dsimp only
        rw [hv x h1]
        omega
      · intro x hx hc hm
        dsimp only
        rw [hv x hx]
        have := hS.degC x hx hc
        have := rem_self (out := out) hS.nodup hx (D := []) (by simp)
        omega
      · intro x hx hc
        dsimp only
        rw [hv x hx]; simp
    · intro x
      simp only [List.take_zero, List.not_mem_nil, false_iff]
      exact hB.zero x
    · intro x
      dsimp only
      rw [hB.one]
      exact ⟨fun h => ⟨h, hB.zero x⟩, fun h => h.1⟩
    · dsimp only
      rw [getD_replicate _ _ _ _ (by omega)]
    · dsimp only
      rw [getD_replicate _ _ _ _ (by omega)]

/-! ## In terms of paths -/

/-- The steps. -/
def Edge (V : List Nat) (out nx : Nat → List Nat) (u x : Nat) : Prop :=
  u ∈ V ∧ ((u ≠ x ∧ x ∈ out u) ∨ x ∈ nx u)

theorem PathEnd.drop {P : Nat → Prop} {E : Nat → Nat → Prop} (hE : ∀ u x, E u x → P x) {k x : Nat}
    (h : PathEnd P E (k + 1) x) : PathEnd P E k x := by
  induction k generalizing x with
  | zero => cases h with | snoc h he => exact .nil (hE _ _ he)
  | succ k ih => cases h with | snoc h he => exact .snoc (ih h) he

theorem PathEnd.le {P : Nat → Prop} {E : Nat → Nat → Prop} (hE : ∀ u x, E u x → P x) {k m x : Nat}
    (h : PathEnd P E m x) (hk : k ≤ m) : PathEnd P E k x := by
  induction m with
  | zero => obtain rfl : k = 0 := by omega
            exact h
  | succ m ih =>
    rcases Nat.eq_or_lt_of_le hk with rfl | hk
    · exact h
    · exact ih (PathEnd.drop hE h) (by omega)

theorem PathEnd.mem {P : Nat → Prop} {E : Nat → Nat → Prop} (hE : ∀ u x, E u x → P x) {k x : Nat}
    (h : PathEnd P E k x) : P x := by
  cases h with
  | nil h => exact h
  | snoc _ he => exact hE _ _ he

theorem PathEnd.congr {P P' : Nat → Prop} {E E' : Nat → Nat → Prop} (hP : ∀ x, P x ↔ P' x)
    (hE : ∀ u x, E u x ↔ E' u x) : PathEnd P E = PathEnd P' E' := by
  have : P = P' := funext (fun x => propext (hP x))
  have : E = E' := funext (fun u => funext (fun x => propext (hE u x)))
  subst_vars
  rfl

/-- The result of the loop, if the nodes listed before level `t` are those without a path of `t` steps. -/
theorem run_levels (hS : Setup V out nx cnt N deg) (hSV : V.length ≤ S) (hPV : V.length < P)
    {pop : St → Res St} (hpop : ∀ s x q, s.queue = x :: q → x ∈ V → pop s = popG out nx deg s)
    {E : Nat → Nat → Prop} (hE : ∀ u x, E u x → x ∈ V)
    (hB : Before V out nx cnt deg Q0 (fun t x => x ∈ V ∧ ¬ PathEnd (· ∈ V) E t x)) {inq : List Bool}
    (hQ : Q0.Nodup) (hi : inq.length = N) (hiq : ∀ x, x < N → (inq.getD x false = true ↔ x ∈ Q0))
    (hQ0 : ∀ x ∈ Q0, x ∈ V ∧ cnt x ∧ deg.getD x 0 = 0) :
    ∃ L ptr levels k, run N P S (Q0, inq) pop = ok (L, ptr, levels) ∧ levels.length = S ∧
      LevelsBy (· ∈ V) E L k ptr levels := by
  obtain ⟨r, h1, s, hs, hq, rfl⟩ := wp_iff.1 (run_spec hS hSV hPV hpop hB hQ hi hiq hQ0)
  have hroom := room hs.core
  have hcl := hs.curLe
  have hpl := hs.ptrLen
  have hll := hs.core.levLen
  have hgetp : ∀ l, l ≤ s.cur → (s.ptr.take (s.cur + 1)).getD l 0 = s.ptr.getD l 0 := by
    intro l hl
    rw [List.getD_eq_getElem?_getD, List.getD_eq_getElem?_getD, List.getElem?_take,
      if_pos (by omega)]
  have hlenp : (s.ptr.take (s.cur + 1)).length = s.cur + 1 := by simp; omega
  have hstrict : ∀ l, l < s.cur → (s.ptr.take (s.cur + 1)).getD l 0
      < (s.ptr.take (s.cur + 1)).getD (l + 1) 0 := by
    intro l hl
    rw [hgetp l (by omega), hgetp (l + 1) (by omega)]
    exact hs.strict l hl
  have hptr : PtrOk (s.ptr.take (s.cur + 1)) s.cur s.st.num := PtrOk.mk' (by omega)
    (by rw [hgetp 0 (by omega)]; exact hs.ptr0) (by rw [hgetp _ (by omega)]; exact hs.ptrL)
    (fun l hl => Nat.le_of_lt (hstrict l hl))
  have hlong : ∀ l x, (x ∈ V ∧ ¬ PathEnd (· ∈ V) E (l + 1) x) ∧ ¬ (x ∈ V ∧ ¬ PathEnd (· ∈ V) E l x) ↔
      LongestTo (· ∈ V) E x l := by
    intro l x
    constructor
    · rintro ⟨⟨h2, h3⟩, h4⟩
      refine ⟨by_contra (fun h => h4 ⟨h2, h⟩), fun m hm => ?_⟩
      by_contra hc
      exact h3 (PathEnd.le hE hm (by omega))
    · rintro ⟨h2, h3⟩
      exact ⟨⟨PathEnd.mem hE h2, fun h => by have := h3 _ h; omega⟩, fun h => h.2 h2⟩
  have hstop : ∀ x, PathEnd (· ∈ V) E s.cur x → PathEnd (· ∈ V) E (s.cur + 1) x := by
    intro x hx
    by_contra hc
    have := (hs.memQ x).2 ⟨⟨PathEnd.mem hE hx, hc⟩, fun h => h.2 hx⟩
    rw [hq] at this
    simp at this
  have hinf : ∀ d x, PathEnd (· ∈ V) E (s.cur + d) x → PathEnd (· ∈ V) E (s.cur + d + 1) x := by
    intro d
    induction d with
    | zero => exact hstop
    | succ d ih =>
      intro x hx
      cases hx with | snoc h he => exact .snoc (ih _ h) he
  refine ⟨s.cur, s.ptr.take (s.cur + 1), s.st.levels, s.st.num, h1, hll, hlenp, hptr, by omega, hstrict,
    (List.nodup_append.1 hs.core.nodup).1, ?_, ?_⟩
  · intro l x hl
    have hfw : ∀ l, l < s.cur → InLevel (s.ptr.take (s.cur + 1)) s.st.levels l x →
        LongestTo (· ∈ V) E x l := by
      rintro l hl ⟨k, h2, h3⟩
      rw [hptr.inBlock_iff hl, hgetp _ (by omega), hgetp _ (by omega)] at h2
      have := hs.lvl l k hl h2.1 h2.2
      rw [List.getD_eq_getElem?_getD, h3] at this
      exact (hlong l x).1 this
    refine ⟨hfw l hl, fun h => ?_⟩
    have hmem : x ∈ s.st.levels.take s.st.num := by
      rw [hs.memD]
      exact ⟨PathEnd.mem hE h.1, fun hc => by have := h.2 _ hc; omega⟩
    obtain ⟨k, hk⟩ := List.mem_iff_getElem?.1 hmem
    rw [List.getElem?_take] at hk
    split at hk
    · rename_i hkc
      obtain ⟨b, hb, h4, h5⟩ := hptr.exists_block hkc
      have hin : InLevel (s.ptr.take (s.cur + 1)) s.st.levels b x :=
        ⟨k, (hptr.inBlock_iff hb).2 ⟨h4, h5⟩, hk⟩
      have h6 := hfw b hb hin
      have : b = l := by
        have e1 := h6.2 _ h.1
        have e2 := h.2 _ h6.1
        omega
      exact this ▸ hin
    · cases hk
  · intro l x h
    by_contra hc
    have := h.2 _ (by
      have := hinf (l - s.cur) x (by rw [show s.cur + (l - s.cur) = l by omega]; exact h.1)
      exact this)
    omega

end Verif.Kahn
