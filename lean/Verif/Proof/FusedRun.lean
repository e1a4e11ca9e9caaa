import Verif.Proof.BnSuper
import Verif.Proof.BlockComps
import Verif.Proof.BlockCsc

/-!
# Proofs about `bcsc_csc_bcsc_levelset`
-/

namespace Verif.FLevel
open Res MLevel Kahn Csc Hdagg

/-! ## Only counted nodes -/

/-- Every node is counted; the nodes of `Lp` have no edges into them and are not in the first queue. -/
theorem before_counted {V : List Nat} {out : Nat → List Nat} {N : Nat} {deg : List Int} {Q0 : List Nat}
    (hS : Setup V out (fun _ => []) (fun _ => True) N deg) {Lp : Nat → Prop}
    (hL : ∀ x ∈ V, Lp x → deg.getD x 0 = 0)
    (hQ0 : ∀ x, x ∈ Q0 ↔ x ∈ V ∧ deg.getD x 0 = 0 ∧ ¬ Lp x)
    {E : Nat → Nat → Prop}
    (hE : ∀ u x, E u x ↔ (u ∈ V ∧ u ≠ x ∧ x ∈ out u) ∨ (u = x ∧ x ∈ V ∧ Lp x)) :
    Before V out (fun _ => []) (fun _ => True) deg Q0 (fun t x => x ∈ V ∧ ¬ PathEnd (· ∈ V) E t x) := by
  have hEV : ∀ u x, E u x → x ∈ V := by
    intro u x h
    rcases (hE u x).1 h with ⟨h1, _, h3⟩ | ⟨_, h, _⟩
    · exact hS.outV u h1 x h3
    · exact h
  have hdeg0 : ∀ x ∈ V, (deg.getD x 0 = 0 ↔ ∀ u ∈ V, u ≠ x → x ∉ out u) := by
    intro x hx
    have h1 := hS.degC x hx trivial
    have h2 := rem_eq_self (out := out) (D := []) hS.nodup hx (by simp)
    have h3 : deg.getD x 0 = 0 ↔ rem V out [] x = self out x := by omega
    rw [h3, h2]
    simp
  have hloop : ∀ x ∈ V, Lp x → ∀ t, PathEnd (· ∈ V) E t x := by
    intro x hx hl t
    induction t with
    | zero => exact .nil hx
    | succ t ih => exact .snoc ih ((hE x x).2 (.inr ⟨rfl, hx, hl⟩))
  refine ⟨?_, ?_, ?_, fun t x h => h.1, ?_, ?_, ?_⟩
  · rintro x ⟨h1, h2⟩; exact h2 (.nil h1)
  · intro x
    rw [hQ0]
    constructor
    · rintro ⟨h1, h2, h3⟩
      refine ⟨h1, fun h => ?_⟩
      cases h with
      | snoc _ he =>
        rcases (hE _ x).1 he with ⟨a, b, c⟩ | ⟨_, _, h⟩
        · exact (hdeg0 x h1).1 h2 _ a b c
        · exact h3 h
    · rintro ⟨h1, h2⟩
      refine ⟨h1, ?_, fun h => h2 (hloop x h1 h 1)⟩
      rw [hdeg0 x h1]
      intro u hu hux hxu
      exact h2 (.snoc (.nil hu) ((hE u x).2 (.inl ⟨hu, hux, hxu⟩)))
  · rintro t x ⟨h1, h2⟩
    exact ⟨h1, fun h => h2 (PathEnd.drop hEV h)⟩
  · intro t x hx _ hd
    constructor
    · rintro ⟨_, h2⟩ u hu hux hxu
      exact ⟨hu, fun h => h2 (.snoc h ((hE u x).2 (.inl ⟨hu, hux, hxu⟩)))⟩
    · intro h
      refine ⟨hx, fun hp => ?_⟩
      cases hp with
      | snoc hp he =>
        rcases (hE _ x).1 he with ⟨a, b, c⟩ | ⟨_, _, h'⟩
        · exact (h _ a b c).2 hp
        · exact hd (hL x hx h')
  · rintro t x hx _ hd ⟨_, h2⟩
    exact (hQ0 x).2 ⟨hx, hd, fun h => h2 (hloop x hx h t)⟩
  · intro t x hx h
    exact absurd trivial h

/-! ## Two kernels -/

/-- The supernodes of both kernels. -/
def bothHeads (n : Nat) (heads : List Nat) : List Nat := heads ++ heads.map (· + n)

/-- The nodes that wait for `x`. -/
def outF (n : Nat) (ca cb cc : Nat → List Nat) (x : Nat) : List Nat :=
  if x < n then ca x ++ (cb x).map (· + n) else (cc (x - n)).map (· + n)

variable {n nodes : Nat} {heads : List Nat} {ca cb cc : Nat → List Nat}

theorem mem_both {x : Nat} : x ∈ bothHeads n heads ↔ ∃ c ∈ heads, x = c ∨ x = c + n := by
  unfold bothHeads
  rw [List.mem_append, List.mem_map]
  constructor
  · rintro (h | ⟨c, h, rfl⟩)
    · exact ⟨x, h, .inl rfl⟩
    · exact ⟨c, h, .inr rfl⟩
  · rintro ⟨c, h, rfl | rfl⟩
    · exact .inl h
    · exact .inr ⟨c, h, rfl⟩

theorem outF_lo {c : Nat} (h : c < n) : outF n ca cb cc c = ca c ++ (cb c).map (· + n) := if_pos h

theorem outF_hi {c : Nat} : outF n ca cb cc (c + n) = (cc c).map (· + n) := by
  unfold outF
  rw [if_neg (by omega), Nat.add_sub_cancel]

theorem both_nodup (ha : Heads n heads ca) : (bothHeads n heads).Nodup := by
  unfold bothHeads
  rw [List.nodup_append]
  refine ⟨ha.nodup, (List.nodup_map_iff (fun a b h => by simpa using h)).2 ha.nodup, ?_⟩
  rintro a h1 b h2 rfl
  rw [List.mem_map] at h2
  obtain ⟨c, _, rfl⟩ := h2
  have := ha.lt _ h1
  omega

theorem count_hi {l : List Nat} {c : Nat} (hc : c < n) : (l.map (· + n)).count c = 0 := by
  rw [List.count_eq_zero, List.mem_map]
  rintro ⟨d, _, h⟩
  omega

theorem count_lo {l : List Nat} (hl : ∀ d ∈ l, d < n) {c : Nat} : l.count (c + n) = 0 := by
  rw [List.count_eq_zero]
  intro h
  have := hl _ h
  omega

theorem rem_both (out : Nat → List Nat) (x : Nat) :
    rem (bothHeads n heads) out [] x = (heads.map (fun u => (out u).count x)).sum
      + (heads.map (fun u => (out (u + n)).count x)).sum := by
  unfold rem bothHeads
  rw [show (fun u : Nat => decide (u ∉ ([] : List Nat))) = fun _ => true from by funext u; simp,
    List.filter_true, List.map_append, List.sum_append, List.map_map]
  rfl

theorem rem_lo (ha : Heads n heads ca) {c : Nat} (hc : c < n) :
    rem (bothHeads n heads) (outF n ca cb cc) [] c = (heads.map (fun u => (ca u).count c)).sum := by
  rw [rem_both]
  have h1 : heads.map (fun u => (outF n ca cb cc u).count c) = heads.map (fun u => (ca u).count c) :=
    List.map_congr_left (fun u hu => by
      rw [outF_lo (ha.lt u hu), List.count_append, count_hi hc, Nat.add_zero])
  have h2 : (heads.map (fun u => (outF n ca cb cc (u + n)).count c)).sum = 0 := by
    rw [List.sum_eq_zero_iff]
    intro k hk
    rw [List.mem_map] at hk
    obtain ⟨u, _, rfl⟩ := hk
    rw [outF_hi, count_hi hc]
  rw [h1, h2, Nat.add_zero]

theorem rem_hi (ha : Heads n heads ca) {c : Nat} :
    rem (bothHeads n heads) (outF n ca cb cc) [] (c + n) = (heads.map (fun u => (cb u).count c)).sum
      + (heads.map (fun u => (cc u).count c)).sum := by
  rw [rem_both]
  have h1 : heads.map (fun u => (outF n ca cb cc u).count (c + n)) = heads.map (fun u => (cb u).count c) :=
    List.map_congr_left (fun u hu => by
      rw [outF_lo (ha.lt u hu), List.count_append, count_add,
        count_lo (fun d hd => ha.lt d (ha.sub u hu d hd)), Nat.zero_add])
  have h2 : heads.map (fun u => (outF n ca cb cc (u + n)).count (c + n)) = heads.map (fun u => (cc u).count c) :=
    List.map_congr_left (fun u hu => by rw [outF_hi, count_add])
  rw [h1, h2]

/-- The degrees. -/
def DegF (n : Nat) (heads : List Nat) (ca cb cc : Nat → List Nat) (deg : List Int) : Prop :=
  deg.length = 2 * n ∧
  (∀ c ∈ heads, deg.getD c 0 = ((heads.map (fun u => ((ca u).filter (fun x => decide (u ≠ x))).count c)).sum : Nat)) ∧
  ∀ c ∈ heads, deg.getD (c + n) 0 = (((heads.map (fun u => ((cc u).filter (fun x => decide (u ≠ x))).count c)).sum
    + (heads.map (fun u => (cb u).count c)).sum : Nat) : Int)

theorem setup_f (ha : Heads n heads ca) (hb : Heads n heads cb) (hc : Heads n heads cc) {deg : List Int}
    (hdeg : DegF n heads ca cb cc deg) :
    Setup (bothHeads n heads) (outF n ca cb cc) (fun _ => []) (fun _ => True) (2 * n) deg := by
  refine ⟨both_nodup ha, ?_, ?_, ?_, fun u _ => by simp, ?_, hdeg.1, ?_, fun x _ h => absurd trivial h⟩
  · intro x hx
    obtain ⟨c, h1, rfl | rfl⟩ := mem_both.1 hx <;> have := ha.lt _ h1 <;> omega
  · intro u hu x hx
    obtain ⟨c, h1, rfl | rfl⟩ := mem_both.1 hu
    · rw [outF_lo (ha.lt _ h1), List.mem_append, List.mem_map] at hx
      rcases hx with h | ⟨d, h, rfl⟩
      · exact mem_both.2 ⟨x, ha.sub _ h1 x h, .inl rfl⟩
      · exact mem_both.2 ⟨d, hb.sub _ h1 d h, .inr rfl⟩
    · rw [outF_hi, List.mem_map] at hx
      obtain ⟨d, h, rfl⟩ := hx
      exact mem_both.2 ⟨d, hc.sub _ h1 d h, .inr rfl⟩
  · intro u _ x hx; simp at hx
  · intro u _ w _ x hx; simp at hx
  · intro x hx _
    obtain ⟨c, h1, rfl | rfl⟩ := mem_both.1 hx
    · have hlt := ha.lt _ h1
      rw [rem_lo ha hlt, hdeg.2.1 _ h1, ← sum_filter_self ha.nodup (cols := ca) h1]
      unfold self
      rw [outF_lo hlt, List.count_append, count_hi hlt]
      push_cast
      omega
    · rw [rem_hi ha, hdeg.2.2 c h1, ← sum_filter_self ha.nodup (cols := cc) h1]
      unfold self
      rw [outF_hi, count_add]
      push_cast
      omega

theorem degF_of_lists {l : List Nat} {deg : List Int}
    (hl : l = heads.flatMap (fun u => (ca u).filter (fun x => decide (u ≠ x)) ++
      ((cc u).filter (fun x => decide (u ≠ x))).map (· + n)) ++ heads.flatMap (fun u => (cb u).map (· + n)))
    (ha : Heads n heads ca)
    (hlen : deg.length = 2 * n) (h : ∀ x, deg.getD x 0 = (l.count x : Int)) : DegF n heads ca cb cc deg := by
  refine ⟨hlen, fun c hc => ?_, fun c hc => ?_⟩
  · have hlt := ha.lt c hc
    rw [h, hl, List.count_append, List.count_flatMap, List.count_flatMap]
    have h1 : heads.map (List.count c ∘ fun u => (ca u).filter (fun x => decide (u ≠ x)) ++
        ((cc u).filter (fun x => decide (u ≠ x))).map (· + n))
        = heads.map (fun u => ((ca u).filter (fun x => decide (u ≠ x))).count c) :=
      List.map_congr_left (fun u hu => by
        show List.count c (_ ++ _) = _
        rw [List.count_append, count_hi hlt, Nat.add_zero])
    have h2 : (heads.map (List.count c ∘ fun u => (cb u).map (· + n))).sum = 0 := by
      rw [List.sum_eq_zero_iff]
      intro k hk
      rw [List.mem_map] at hk
      obtain ⟨u, _, rfl⟩ := hk
      exact count_hi hlt
    rw [h1, h2, Nat.add_zero]
  · rw [h, hl, List.count_append, List.count_flatMap, List.count_flatMap]
    have h1 : heads.map (List.count (c + n) ∘ fun u => (ca u).filter (fun x => decide (u ≠ x)) ++
        ((cc u).filter (fun x => decide (u ≠ x))).map (· + n))
        = heads.map (fun u => ((cc u).filter (fun x => decide (u ≠ x))).count c) :=
      List.map_congr_left (fun u hu => by
        show List.count (c + n) (_ ++ _) = _
        rw [List.count_append, count_add,
          count_lo (fun d hd => ha.lt d (ha.sub u hu d (List.mem_of_mem_filter hd))), Nat.zero_add])
    have h2 : heads.map (List.count (c + n) ∘ fun u => (cb u).map (· + n))
        = heads.map (fun u => (cb u).count c) :=
      List.map_congr_left (fun u hu => count_add)
    rw [h1, h2]

/-! ## The supernode of a first column -/

section
variable {super : List Nat}

/-- The column after the supernode that starts with column `c`. -/
def stopOf (super : List Nat) (c : Nat) : Nat := super.getD (super.idxOf c + 1) 0

theorem strict_lt (hp : PtrOk super nodes n)
    (hst : ∀ t, t < nodes → super.getD t 0 < super.getD (t + 1) 0) {a b : Nat} (hab : a < b) (hb : b ≤ nodes) :
    super.getD a 0 < super.getD b 0 := by
  have := hst a (by omega)
  have := hp.dmono_le (a := a + 1) (b := b) (by omega) hb
  omega

theorem stopOf_eq (hp : PtrOk super nodes n)
    (hst : ∀ t, t < nodes → super.getD t 0 < super.getD (t + 1) 0) {t : Nat} (ht : t < nodes) :
    stopOf super (super.getD t 0) = super.getD (t + 1) 0 := by
  have hl := hp.len
  unfold stopOf
  have : super.idxOf (super.getD t 0) = t := by
    have h1 : super.getD t 0 ∈ super := by
      have := hp.get (b := t) (by omega)
      exact List.mem_of_getElem? this
    have h2 : super.idxOf (super.getD t 0) < super.length := List.idxOf_lt_length_iff.2 h1
    have h3 : super[super.idxOf (super.getD t 0)] = super.getD t 0 := List.getElem_idxOf h2
    have h4 : super.idxOf (super.getD t 0) ≤ t := by
      by_contra hc
      have : super.getD t 0 ∉ super.take (super.idxOf (super.getD t 0)) := by
        intro hm
        have := List.mem_take_iff_idxOf_lt h1 |>.1 hm
        omega
      apply this
      rw [List.mem_iff_getElem?]
      exact ⟨t, by rw [List.getElem?_take, if_pos (by omega)]; exact hp.get (by omega)⟩
    rcases Nat.eq_or_lt_of_le h4 with h | h
    · exact h
    · have h5 := strict_lt hp hst h (by omega)
      rw [List.getD_eq_getElem _ _ h2, h3] at h5
      omega
  rw [this]

theorem head_getD (hp : PtrOk super nodes n) {c : Nat} (hc : c ∈ super.take nodes) :
    ∃ t, t < nodes ∧ super.getD t 0 = c := by
  obtain ⟨t, h1, h2⟩ := mem_take_iff.1 hc
  exact ⟨t, h1, by rw [List.getD_eq_getElem?_getD, h2]; rfl⟩

theorem nodes_le (hp : PtrOk super nodes n)
    (hst : ∀ t, t < nodes → super.getD t 0 < super.getD (t + 1) 0) : nodes ≤ n := by
  have : ∀ t, t ≤ nodes → t ≤ super.getD t 0 := by
    intro t
    induction t with
    | zero => intro _; omega
    | succ t ih =>
      intro h
      have := ih (by omega)
      have := hst t (by omega)
      omega
  have := this nodes (Nat.le_refl _)
  rwa [hp.dlast] at this

theorem find_head (hp : PtrOk super nodes n)
    (hst : ∀ t, t < nodes → super.getD t 0 < super.getD (t + 1) 0) {t : Nat} (ht : t < nodes) :
    Inspect.find super (super.getD t 0) (nodes + 1) 0 nodes = ok t := by
  have hl := hp.len
  obtain ⟨r, h1, h2, h3⟩ := wp_iff.1 (Inspect.find_found (target := super.getD t 0) hl
    (fun a b hab hb => hp.dmono_le hab hb) (nodes + 1) 0 nodes (by omega) (by omega) (Nat.le_refl _)
    ⟨t, by omega, by omega, rfl⟩)
  rw [h1]
  have : r = t := by
    rcases Nat.lt_trichotomy r t with h | h | h
    · have := strict_lt hp hst h (by omega); omega
    · exact h
    · have := strict_lt hp hst h h2; omega
  rw [this]

end

/-! ## The whole function -/

section
variable {A B C : Csc} {super sup : List Nat}

theorem heads_block (hB : B.WF) (hp : PtrOk super nodes B.n)
    (hst : ∀ t, t < nodes → super.getD t 0 < super.getD (t + 1) 0)
    (hs : ∀ v t, t < nodes → super.getD t 0 ≤ v → v < super.getD (t + 1) 0 → sup.getD v 0 = super.getD t 0) :
    Heads B.n (super.take nodes) (fun c => blockHeads B sup c (stopOf super c)) := by
  have hh := heads_first hB hp hst hs
  refine ⟨hh.nodup, hh.lt, fun c hc d hd => ?_⟩
  obtain ⟨t, h1, rfl⟩ := head_getD hp hc
  rw [stopOf_eq hp hst h1] at hd
  have := hst t h1
  have hle := hp.dle (b := t + 1) (by omega)
  unfold blockHeads at hd
  rw [List.mem_map] at hd
  obtain ⟨r, hr, hrd⟩ := hd
  obtain ⟨j, _, h3, h4⟩ := (mem_blockSlice hB (by omega) hle).1 hr
  obtain ⟨t', h5, h6, _⟩ := (sup_iff hp hs (hB.range j (by omega) r h4)).1 hrd
  exact mem_take_iff.2 ⟨t', h5, h6⟩

theorem mem_block_iff (hB : B.WF) (hp : PtrOk super nodes B.n)
    (hst : ∀ t, t < nodes → super.getD t 0 < super.getD (t + 1) 0)
    (hs : ∀ v t, t < nodes → super.getD t 0 ≤ v → v < super.getD (t + 1) 0 → sup.getD v 0 = super.getD t 0)
    {c d : Nat} :
    (c ∈ super.take nodes ∧ d ∈ blockHeads B sup c (stopOf super c)) ↔ BlockEdge B super nodes c d := by
  constructor
  · rintro ⟨hc, hd⟩
    obtain ⟨t, h1, rfl⟩ := head_getD hp hc
    rw [stopOf_eq hp hst h1] at hd
    have := hst t h1
    have hle := hp.dle (b := t + 1) (by omega)
    unfold blockHeads at hd
    rw [List.mem_map] at hd
    obtain ⟨r, hr, hrd⟩ := hd
    obtain ⟨j, h2, h3, h4⟩ := (mem_blockSlice hB (by omega) hle).1 hr
    exact ⟨j, r, (headOf_iff hp).2 ⟨t, h1, rfl, h2, h3⟩, h4, (sup_iff hp hs (hB.range j (by omega) r h4)).1 hrd⟩
  · rintro ⟨j, r, hj, hr, hd⟩
    obtain ⟨t, h1, rfl, h2, h3⟩ := (headOf_iff hp).1 hj
    have hle := hp.dle (b := t + 1) (by omega)
    refine ⟨mem_take_iff.2 ⟨t, h1, hp.get (by omega)⟩, ?_⟩
    rw [stopOf_eq hp hst h1]
    unfold blockHeads
    rw [List.mem_map]
    exact ⟨r, (mem_blockSlice hB (by omega) hle).2 ⟨j, h2, h3, hr⟩,
      (sup_iff hp hs (hB.range j (by omega) r hr)).2 hd⟩

theorem degrees_f (hA : A.WF) (hB : B.WF) (hC : C.WF) (hBn : B.n = A.n) (hCn : C.n = A.n)
    (hp : PtrOk super nodes A.n)
    (hst : ∀ t, t < nodes → super.getD t 0 < super.getD (t + 1) 0) (hsl : sup.length = A.n)
    (hs : ∀ v t, t < nodes → super.getD t 0 ≤ v → v < super.getD (t + 1) 0 → sup.getD v 0 = super.getD t 0) :
    wp (do
      let deg ← forRange 0 nodes (fun i deg => do
        let index ← rd super i
        let deg ← overBelow A.p A.i sup index (fun x deg => if index ≠ x then inc x deg else ok deg) deg
        overBelow C.p C.i sup index (fun x deg => if index ≠ x then inc (x + A.n) deg else ok deg) deg)
        (List.replicate (2 * A.n) 0)
      forRange 0 nodes (fun i deg => do
        let index ← rd super i
        let stop ← rd super (i + 1)
        overBlock B.p B.i sup index (index + (stop - index)) (fun x deg => inc (x + A.n) deg) deg) deg)
      (DegF A.n (super.take nodes) (belowHeads A sup) (fun c => blockHeads B sup c (stopOf super c))
        (belowHeads C sup)) := by
  have hl := hp.len
  have ha := heads_first hA hp hst hs
  have hb := heads_block (B := B) hB (hBn ▸ hp) hst hs
  have hc := heads_first hC (hCn ▸ hp) hst hs
  rw [hBn] at hb
  rw [hCn] at hc
  obtain ⟨l1, hl1⟩ : ∃ l, l = (super.take nodes).flatMap (fun u =>
    (belowHeads A sup u).filter (fun x => decide (u ≠ x)) ++
      ((belowHeads C sup u).filter (fun x => decide (u ≠ x))).map (· + A.n)) := ⟨_, rfl⟩
  obtain ⟨l2, hl2⟩ : ∃ l, l = (super.take nodes).flatMap (fun u =>
    (blockHeads B sup u (stopOf super u)).map (· + A.n)) := ⟨_, rfl⟩
  have e1 : ∀ d, forRange 0 nodes (fun i deg => do
        let index ← rd super i
        let deg ← overBelow A.p A.i sup index (fun x deg => if index ≠ x then inc x deg else ok deg) deg
        overBelow C.p C.i sup index (fun x deg => if index ≠ x then inc (x + A.n) deg else ok deg) deg) d
      = forEach l1 inc d := by
    intro d
    rw [flat_nodes rfl (by omega), hl1, ← forEach_flat]
    refine forEach_congr (fun u hu s => ?_) d
    have hun := ha.lt u hu
    rw [overBelow_eq hA hsl hun, forEach_ite, forEach_append]
    congr 1
    funext s'
    rw [overBelow_eq hC (by omega) (by omega), forEach_ite, Util.forEach_map]
  have e2 : ∀ d, forRange 0 nodes (fun i deg => do
        let index ← rd super i
        let stop ← rd super (i + 1)
        overBlock B.p B.i sup index (index + (stop - index)) (fun x deg => inc (x + A.n) deg) deg) d
      = forEach l2 inc d := by
    intro d
    rw [hl2, ← forEach_flat, ← flat_nodes (super := super) (nodes := nodes) rfl (by omega)]
    refine Blocked.forRange_congr (fun i _ hi s => ?_) d
    have h1 := hst i hi
    have hle := hp.dle (b := i + 1) (by omega)
    rw [rd_getD 0 (by omega), ok_bind, ok_bind, rd_getD 0 (by omega), ok_bind,
      show super.getD i 0 + (super.getD (i + 1) 0 - super.getD i 0) = super.getD (i + 1) 0 by omega,
      overBlock_eq hB (by omega) (by omega) (by omega), stopOf_eq hp hst hi, Util.forEach_map]
  rw [e1]
  simp only [e2]
  rw [← forEach_append]
  refine wp_mono (incs_spec ?_) ?_
  · intro x hx
    rw [List.length_replicate]
    rw [List.mem_append, hl1, hl2] at hx
    simp only [List.mem_flatMap, List.mem_append, List.mem_map] at hx
    rcases hx with ⟨u, hu, h | ⟨d, h, rfl⟩⟩ | ⟨u, hu, d, h, rfl⟩
    · have := ha.lt x (ha.sub u hu x (List.mem_of_mem_filter h)); omega
    · have := hc.lt d (hc.sub u hu d (List.mem_of_mem_filter h)); omega
    · have := hb.lt d (hb.sub u hu d h); omega
  · rintro d ⟨h1, h2⟩
    refine degF_of_lists (l := l1 ++ l2) (by rw [hl1, hl2]) ha (by rw [h1, List.length_replicate]) (fun x => ?_)
    rw [h2]
    have : (List.replicate (2 * A.n) (0 : Int)).getD x 0 = 0 := by
      rw [List.getD_eq_getElem?_getD, List.getElem?_replicate]
      split <;> rfl
    omega

theorem fused_spec (hA : A.WF) (hB : B.WF) (hC : C.WF) (hBn : B.n = A.n) (hCn : C.n = A.n)
    (hp : PtrOk super nodes A.n)
    (hst : ∀ t, t < nodes → super.getD t 0 < super.getD (t + 1) 0) :
    ∃ L ptr levels k, fused A.n A B C nodes super = ok (L, ptr, levels) ∧ levels.length = 2 * nodes ∧
      LevelsBy (FusedNode A.n super nodes) (StuckEdge A.n A B C super nodes) L k ptr levels := by
  have hl := hp.len
  obtain ⟨sup, s1, s2, s3⟩ := wp_iff.1 (supersFirst_spec hp)
  have ha := heads_first hA hp hst s3
  have hb := heads_block (B := B) hB (hBn ▸ hp) hst s3
  have hc := heads_first hC (hCn ▸ hp) hst s3
  rw [hBn] at hb
  rw [hCn] at hc
  obtain ⟨deg, d1, hdeg⟩ := wp_iff.1 (degrees_f hA hB hC hBn hCn hp hst s2 s3)
  obtain ⟨d0, d2, d3⟩ := Blocked.bind_inv d1
  have hnn := nodes_le hp hst
  obtain ⟨⟨Q0, inq⟩, q1, q2, q3, q4, q5⟩ := wp_iff.1 (initQueue_spec (N := 2 * A.n) (super := super)
    (nodes := nodes) rfl (by omega) ha.nodup (fun c hc => by have := ha.lt c hc; omega) hdeg.1)
  dsimp only at q2 q3 q4 q5
  unfold fused
  rw [s1, ok_bind, d2, ok_bind, d3, ok_bind, q1, ok_bind]
  obtain ⟨heads, hheads⟩ : ∃ h, h = super.take nodes := ⟨_, rfl⟩
  obtain ⟨ca, hca⟩ : ∃ f, f = belowHeads A sup := ⟨_, rfl⟩
  obtain ⟨cb, hcb⟩ : ∃ f, f = fun c => blockHeads B sup c (stopOf super c) := ⟨_, rfl⟩
  obtain ⟨cc, hcc⟩ : ∃ f, f = belowHeads C sup := ⟨_, rfl⟩
  rw [← hheads, ← hca] at ha
  rw [← hheads, ← hcb] at hb
  rw [← hheads, ← hcc] at hc
  rw [← hheads, ← hca, ← hcb, ← hcc] at hdeg
  rw [← hheads] at q5
  have hlen : heads.length = nodes := by rw [hheads]; simp; omega
  have hV : ∀ x, x ∈ bothHeads A.n heads ↔ FusedNode A.n super nodes x := by
    intro x
    rw [mem_both, hheads]
    exact exists_congr (fun c => by rw [mem_take_iff])
  have hFE : ∀ u x, (u ∈ bothHeads A.n heads ∧ u ≠ x ∧ x ∈ outF A.n ca cb cc u)
      ↔ FusedEdge A.n A B C super nodes u x := by
    intro u x
    have eA : ∀ c d, ColEdge heads ca c d ↔ HeadEdge A super nodes c d := by
      intro c d
      rw [hheads, hca]
      exact colEdge_first hA hp hst s3
    have eC : ∀ c d, ColEdge heads cc c d ↔ HeadEdge C super nodes c d := by
      intro c d
      rw [hheads, hcc]
      exact colEdge_first hC (hCn ▸ hp) hst s3
    have eB : ∀ c d, (c ∈ heads ∧ d ∈ cb c) ↔ BlockEdge B super nodes c d := by
      intro c d
      rw [hheads, hcb]
      exact mem_block_iff hB (hBn ▸ hp) hst s3
    unfold FusedEdge
    rw [← eA]
    simp only [← eB, ← eC]
    constructor
    · rintro ⟨h1, h2, h3⟩
      obtain ⟨c, h4, rfl | rfl⟩ := mem_both.1 h1
      · rw [outF_lo (ha.lt _ h4), List.mem_append, List.mem_map] at h3
        rcases h3 with h | ⟨d, h, rfl⟩
        · exact .inl ⟨h4, h2, h⟩
        · exact .inr (.inl ⟨d, ⟨h4, h⟩, rfl⟩)
      · rw [outF_hi, List.mem_map] at h3
        obtain ⟨d, h, rfl⟩ := h3
        exact .inr (.inr ⟨c, d, ⟨h4, by omega, h⟩, rfl, rfl⟩)
    · rintro (⟨h1, h2, h3⟩ | ⟨d, ⟨h1, h2⟩, rfl⟩ | ⟨c, d, ⟨h1, h2, h3⟩, rfl, rfl⟩)
      · exact ⟨mem_both.2 ⟨u, h1, .inl rfl⟩, h2, by
          rw [outF_lo (ha.lt _ h1)]; exact List.mem_append_left _ h3⟩
      · have := ha.lt _ h1
        exact ⟨mem_both.2 ⟨u, h1, .inl rfl⟩, by omega, by
          rw [outF_lo (ha.lt _ h1)]; exact List.mem_append_right _ (List.mem_map.2 ⟨d, h2, rfl⟩)⟩
      · exact ⟨mem_both.2 ⟨c, h1, .inr rfl⟩, by omega, by
          rw [outF_hi]; exact List.mem_map.2 ⟨d, h3, rfl⟩⟩
  have hS := setup_f ha hb hc hdeg
  have hdeg0 : ∀ x ∈ bothHeads A.n heads, (deg.getD x 0 = 0 ↔ ∀ u, ¬ FusedEdge A.n A B C super nodes u x) := by
    intro x hx
    have h1 := hS.degC x hx trivial
    have h2 := rem_eq_self (out := outF A.n ca cb cc) (D := []) hS.nodup hx (by simp)
    have h3 : deg.getD x 0 = 0 ↔ rem (bothHeads A.n heads) (outF A.n ca cb cc) [] x
      = self (outF A.n ca cb cc) x := by omega
    rw [h3, h2]
    constructor
    · intro h u hu
      obtain ⟨a, b, c⟩ := (hFE u x).2 hu
      simpa using h u a b c
    · intro h u a b c
      exact absurd ((hFE u x).1 ⟨a, b, c⟩) (h u)
  have hOr : ∀ x, Orphan A.n A B C super nodes x ↔
      (∃ c ∈ heads, x = c + A.n) ∧ ∀ u, ¬ FusedEdge A.n A B C super nodes u x := by
    intro x
    unfold Orphan
    rw [hheads]
    refine and_congr_left (fun _ => exists_congr (fun c => by rw [mem_take_iff]))
  have hQ0 : ∀ x, x ∈ Q0 ↔ x ∈ bothHeads A.n heads ∧ deg.getD x 0 = 0 ∧ ¬ Orphan A.n A B C super nodes x := by
    intro x
    rw [q5]
    constructor
    · rintro ⟨h1, h2⟩
      refine ⟨mem_both.2 ⟨x, h1, .inl rfl⟩, h2, fun h => ?_⟩
      obtain ⟨⟨c, _, h3⟩, _⟩ := (hOr x).1 h
      have := ha.lt x h1
      omega
    · rintro ⟨h1, h2, h3⟩
      refine ⟨?_, h2⟩
      obtain ⟨c, h4, rfl | rfl⟩ := mem_both.1 h1
      · exact h4
      · exact absurd ((hOr _).2 ⟨⟨c, h4, rfl⟩, (hdeg0 _ h1).1 h2⟩) h3
  have hOV : ∀ x, Orphan A.n A B C super nodes x → x ∈ bothHeads A.n heads := by
    intro x h
    obtain ⟨⟨c, h1, h2⟩, _⟩ := (hOr x).1 h
    exact mem_both.2 ⟨c, h1, .inr h2⟩
  have hE : ∀ u x, StuckEdge A.n A B C super nodes u x ↔
      (u ∈ bothHeads A.n heads ∧ u ≠ x ∧ x ∈ outF A.n ca cb cc u) ∨
      (u = x ∧ x ∈ bothHeads A.n heads ∧ Orphan A.n A B C super nodes x) := by
    intro u x
    unfold StuckEdge
    rw [hFE]
    refine or_congr_right ⟨?_, ?_⟩
    · rintro ⟨rfl, h⟩; exact ⟨rfl, hOV _ h, h⟩
    · rintro ⟨rfl, _, h⟩; exact ⟨rfl, h⟩
  have hEV : ∀ u x, StuckEdge A.n A B C super nodes u x → x ∈ bothHeads A.n heads := by
    intro u x h
    rcases (hE u x).1 h with ⟨h1, _, h3⟩ | ⟨_, h, _⟩
    · exact hS.outV u h1 x h3
    · exact h
  have hBef := before_counted hS (Lp := Orphan A.n A B C super nodes) (Q0 := Q0)
    (fun x hx h => (hdeg0 x hx).2 h.2) hQ0 hE
  have hVlen : (bothHeads A.n heads).length = 2 * nodes := by
    unfold bothHeads
    rw [List.length_append, List.length_map]; omega
  obtain ⟨pop, hpop⟩ : ∃ pop, pop = popFront A.n (fun kern index s =>
    if kern = 0 then do
      let s ← overBelow A.p A.i sup index (visit deg) s
      let start ← Inspect.find super index (nodes + 1) 0 nodes
      let a ← rd super (start + 1)
      let b ← rd super start
      overBlock B.p B.i sup index (index + (a - b)) (fun x s => visit deg (x + A.n) s) s
    else overBelow C.p C.i sup index (fun x s => visit deg (x + A.n) s) s) := ⟨_, rfl⟩
  have hpp : ∀ s x q, s.queue = x :: q → x ∈ bothHeads A.n heads →
      pop s = popG (outF A.n ca cb cc) (fun _ => []) deg s := by
    rw [hpop]
    intro s x q hx hxV
    obtain ⟨c, h1, h2⟩ := mem_both.1 hxV
    have hcn := ha.lt c h1
    rw [hheads] at h1
    obtain ⟨t, ht, hct⟩ := head_getD hp h1
    have hstt := hst t ht
    have hle := hp.dle (b := t + 1) (by omega)
    unfold popFront popG
    rw [hx]
    dsimp only
    congr 1; funext a
    congr 1; funext b
    congr 1; funext d
    congr 1; funext e
    rw [if_neg (by omega)]
    show _ = (_ >>= fun s => ok s)
    rw [bind_ok']
    rcases h2 with rfl | rfl
    · rw [Nat.div_eq_of_lt hcn, Nat.zero_mul, Nat.sub_zero, if_pos rfl, outF_lo hcn,
        overBelow_eq hA s2 hcn, forEach_append, hca]
      congr 1; funext s'
      rw [← hct, find_head hp hst ht, ok_bind, rd_getD 0 (by omega), ok_bind, rd_getD 0 (by omega), ok_bind,
        show super.getD t 0 + (super.getD (t + 1) 0 - super.getD t 0) = super.getD (t + 1) 0 by omega,
        overBlock_eq hB (by omega) (by omega) (by omega), Util.forEach_map, hcb]
      dsimp only
      rw [stopOf_eq hp hst ht]
    · have hd : (c + A.n) / A.n = 1 := by
        rw [Nat.add_div_right _ (by omega), Nat.div_eq_of_lt hcn]
      rw [hd, if_neg (by omega), Nat.one_mul, Nat.add_sub_cancel, outF_hi,
        overBelow_eq hC (by omega) (by omega), Util.forEach_map, hcc]
  obtain ⟨L, ptr, levels, k, r1, r2, r3⟩ := run_levels hS (S := 2 * nodes) (P := 2 * A.n + 1) (by omega)
    (by omega) hpp hEV hBef q2 q3 q4 (fun x hx => ⟨((hQ0 x).1 hx).1, trivial, ((hQ0 x).1 hx).2.1⟩)
  rw [← hpop]
  refine ⟨L, ptr, levels, k, r1, r2, ?_⟩
  have : (· ∈ bothHeads A.n heads) = FusedNode A.n super nodes := by
    funext x
    exact propext (hV x)
  rw [this] at r3
  exact r3

end

end Verif.FLevel
