import Verif.Proof.BnLevels

/-!
# The supernodes of `level_set_bn`
-/

namespace Verif.FLevel
open Res MLevel Kahn Csc Hdagg

variable {g : Csc} {n nodes : Nat}

/-! ## First columns -/

section First
variable {super sup : List Nat}

theorem headOf_iff (hp : PtrOk super nodes n) {r d : Nat} :
    HeadOf super nodes r d ↔ ∃ t, t < nodes ∧ super.getD t 0 = d ∧ d ≤ r ∧ r < super.getD (t + 1) 0 := by
  constructor
  · rintro ⟨t, h1, h2, h3⟩
    rw [hp.inBlock_iff h1] at h3
    have : super.getD t 0 = d := by rw [List.getD_eq_getElem?_getD, h2]; rfl
    exact ⟨t, h1, this, by omega, h3.2⟩
  · rintro ⟨t, h1, h2, h3, h4⟩
    exact ⟨t, h1, by rw [hp.get (by omega), h2], (hp.inBlock_iff h1).2 ⟨by omega, h4⟩⟩

theorem sup_iff (hp : PtrOk super nodes n)
    (hs : ∀ v t, t < nodes → super.getD t 0 ≤ v → v < super.getD (t + 1) 0 → sup.getD v 0 = super.getD t 0)
    {r d : Nat} (hr : r < n) : sup.getD r 0 = d ↔ HeadOf super nodes r d := by
  rw [headOf_iff hp]
  obtain ⟨t, h1, h2, h3⟩ := hp.exists_block hr
  constructor
  · rintro rfl
    rw [hs r t h1 h2 h3]
    exact ⟨t, h1, rfl, h2, h3⟩
  · rintro ⟨t', h4, h5, h6, h7⟩
    rw [hs r t' h4 (by omega) h7, h5]

theorem mem_take_iff {l : List Nat} {k x : Nat} : x ∈ l.take k ↔ IsHead l k x := by
  rw [List.mem_iff_getElem?]
  constructor
  · rintro ⟨i, h⟩
    rw [List.getElem?_take] at h
    split at h
    · exact ⟨i, by assumption, h⟩
    · cases h
  · rintro ⟨t, h1, h2⟩
    exact ⟨t, by rw [List.getElem?_take, if_pos h1, h2]⟩

theorem take_nodup (hp : PtrOk super nodes n)
    (hst : ∀ t, t < nodes → super.getD t 0 < super.getD (t + 1) 0) : (super.take nodes).Nodup := by
  have hlt : ∀ a b, a < b → b ≤ nodes → super.getD a 0 < super.getD b 0 := by
    intro a b hab hb
    have := hst a (by omega)
    have := hp.dmono_le (a := a + 1) (b := b) (by omega) hb
    omega
  rw [List.nodup_iff_injective_get]
  rintro ⟨a, ha⟩ ⟨b, hb⟩ h
  have hl := hp.len
  simp only [List.length_take] at ha hb
  have ha' : super[a]? = some (super.getD a 0) := hp.get (by omega)
  have hb' : super[b]? = some (super.getD b 0) := hp.get (by omega)
  simp only [List.get_eq_getElem, List.getElem_take] at h
  rw [List.getElem?_eq_getElem (by omega)] at ha' hb'
  simp only [Option.some.injEq] at ha' hb'
  rw [Fin.mk.injEq]
  rcases Nat.lt_trichotomy a b with h' | h' | h'
  · have := hlt a b h' (by omega); omega
  · exact h'
  · have := hlt b a h' (by omega); omega

theorem heads_first (hwf : g.WF) (hp : PtrOk super nodes g.n)
    (hst : ∀ t, t < nodes → super.getD t 0 < super.getD (t + 1) 0)
    (hs : ∀ v t, t < nodes → super.getD t 0 ≤ v → v < super.getD (t + 1) 0 → sup.getD v 0 = super.getD t 0) :
    Heads g.n (super.take nodes) (belowHeads g sup) := by
  refine ⟨take_nodup hp hst, ?_, ?_⟩
  · intro c hc
    obtain ⟨t, h1, h2⟩ := mem_take_iff.1 hc
    have : super.getD t 0 = c := by rw [List.getD_eq_getElem?_getD, h2]; rfl
    have := hst t h1
    have := hp.dle (b := t + 1) (by omega)
    omega
  · intro c hc d hd
    obtain ⟨t, h1, h2⟩ := mem_take_iff.1 hc
    have e : super.getD t 0 = c := by rw [List.getD_eq_getElem?_getD, h2]; rfl
    have := hst t h1
    have := hp.dle (b := t + 1) (by omega)
    unfold belowHeads at hd
    rw [List.mem_map] at hd
    obtain ⟨r, hr, hrd⟩ := hd
    have hrn := hwf.range c (by omega) r (List.mem_of_mem_tail hr)
    obtain ⟨t', h4, h5, _⟩ := (sup_iff hp hs hrn).1 hrd
    exact mem_take_iff.2 ⟨t', h4, h5⟩

theorem colEdge_first (hwf : g.WF) (hp : PtrOk super nodes g.n)
    (hst : ∀ t, t < nodes → super.getD t 0 < super.getD (t + 1) 0)
    (hs : ∀ v t, t < nodes → super.getD t 0 ≤ v → v < super.getD (t + 1) 0 → sup.getD v 0 = super.getD t 0)
    {c d : Nat} : ColEdge (super.take nodes) (belowHeads g sup) c d ↔ HeadEdge g super nodes c d := by
  unfold ColEdge HeadEdge
  rw [mem_take_iff]
  refine and_congr_right (fun hc => and_congr_right (fun _ => ?_))
  have hcn := (heads_first hwf hp hst hs).lt c (mem_take_iff.2 hc)
  unfold belowHeads
  rw [List.mem_map]
  constructor
  · rintro ⟨r, hr, h⟩
    exact ⟨r, hr, (sup_iff hp hs (hwf.range c hcn r (List.mem_of_mem_tail hr))).1 h⟩
  · rintro ⟨r, hr, h⟩
    exact ⟨r, hr, (sup_iff hp hs (hwf.range c hcn r (List.mem_of_mem_tail hr))).2 h⟩

end First

/-! ## Last columns -/

section Last
variable {super : List Int} {sup : List Nat}

theorem back_get (hb : BackOk super nodes n) {t : Nat} (ht : t ≤ nodes) : super[t]? = some (super.getD t 0) := by
  rcases Nat.eq_or_lt_of_le ht with rfl | h
  · rw [List.getD_eq_getElem?_getD, hb.last]; rfl
  · obtain ⟨a, _, h1, _⟩ := hb.step t h
    rw [List.getD_eq_getElem?_getD, h1]; rfl

theorem back_len (hb : BackOk super nodes n) : nodes < super.length := by
  have := hb.last
  by_contra h
  rw [List.getElem?_eq_none (by omega)] at this
  cases this

theorem back_lt (hb : BackOk super nodes n) {t : Nat} (ht : t < nodes) :
    super.getD (t + 1) 0 < super.getD t 0 := by
  obtain ⟨a, b, h1, h2, h3⟩ := hb.step t ht
  rw [List.getD_eq_getElem?_getD, List.getD_eq_getElem?_getD, h1, h2]
  exact h3

theorem back_anti (hb : BackOk super nodes n) {a b : Nat} (hab : a < b) (hbn : b ≤ nodes) :
    super.getD b 0 < super.getD a 0 := by
  induction b with
  | zero => omega
  | succ b ih =>
    have := back_lt hb (t := b) (by omega)
    rcases Nat.eq_or_lt_of_le (show a ≤ b by omega) with rfl | h
    · exact this
    · have := ih h (by omega); omega

theorem back_bound (hb : BackOk super nodes n) {t : Nat} (ht : t < nodes) :
    0 ≤ super.getD t 0 ∧ super.getD t 0 < n := by
  have h1 := back_anti hb (a := t) (b := nodes) ht (Nat.le_refl _)
  have h2 : super.getD nodes 0 = -1 := by rw [List.getD_eq_getElem?_getD, hb.last]; rfl
  have h3 : super.getD 0 0 = (n : Int) - 1 := by rw [List.getD_eq_getElem?_getD, hb.first]; rfl
  rcases Nat.eq_zero_or_pos t with rfl | h
  · omega
  · have := back_anti hb (a := 0) (b := t) h (by omega); omega

theorem back_block (hb : BackOk super nodes n) {r : Nat} (hr : r < n) :
    ∃ t, t < nodes ∧ super.getD (t + 1) 0 < (r : Int) ∧ (r : Int) ≤ super.getD t 0 := by
  have h2 : super.getD nodes 0 = -1 := by rw [List.getD_eq_getElem?_getD, hb.last]; rfl
  have h3 : super.getD 0 0 = (n : Int) - 1 := by rw [List.getD_eq_getElem?_getD, hb.first]; rfl
  have key : ∀ k, k ≤ nodes → super.getD k 0 < (r : Int) →
      ∃ t, t < k ∧ super.getD (t + 1) 0 < (r : Int) ∧ (r : Int) ≤ super.getD t 0 := by
    intro k
    induction k with
    | zero => intro _ h; omega
    | succ k ih =>
      intro hk h
      by_cases hc : (r : Int) ≤ super.getD k 0
      · exact ⟨k, by omega, h, hc⟩
      · obtain ⟨t, a, b⟩ := ih (by omega) (by omega)
        exact ⟨t, by omega, b⟩
  exact key nodes (Nat.le_refl _) (by omega)

theorem back_unique (hb : BackOk super nodes n) {r t t' : Nat} (ht : t < nodes) (ht' : t' < nodes)
    (h1 : super.getD (t + 1) 0 < (r : Int)) (h2 : (r : Int) ≤ super.getD t 0)
    (h3 : super.getD (t' + 1) 0 < (r : Int)) (h4 : (r : Int) ≤ super.getD t' 0) : t = t' := by
  have key : ∀ a b, a < nodes → b < nodes → super.getD (a + 1) 0 < (r : Int) → (r : Int) ≤ super.getD b 0 → b ≤ a := by
    intro a b ha hb' h5 h6
    by_contra hc
    rcases Nat.eq_or_lt_of_le (show a + 1 ≤ b by omega) with h | h
    · rw [h] at h5; omega
    · have := back_anti hb h (by omega); omega
  have := key t t' ht ht' h1 h4
  have := key t' t ht' ht h3 h2
  omega

theorem supersLast_spec (hb : BackOk super nodes n) :
    wp (supersLast n nodes super) (fun sup => sup.length = n ∧ ∀ (v t : Nat), t < nodes →
      super.getD (t + 1) 0 < (v : Int) → (v : Int) ≤ super.getD t 0 → sup.getD v 0 = (super.getD t 0).toNat) := by
  have hl := back_len hb
  have h2 : super.getD nodes 0 = -1 := by rw [List.getD_eq_getElem?_getD, hb.last]; rfl
  have h3 : super.getD 0 0 = (n : Int) - 1 := by rw [List.getD_eq_getElem?_getD, hb.first]; rfl
  unfold supersLast
  rw [wp_bind]
  obtain ⟨P, hP⟩ : ∃ P : Int → List Nat → Prop, P = fun c s => ∀ (v : Nat) t, t < nodes → c < (v : Int) →
    super.getD (t + 1) 0 < (v : Int) → (v : Int) ≤ super.getD t 0 → s.getD v 0 = (super.getD t 0).toNat := ⟨_, rfl⟩
  refine forRange_wp' (fun i (st : List Nat × Int) => st.1.length = n ∧ st.2 = super.getD i 0 ∧
    P st.2 st.1) (by omega) ⟨by simp, h3.symm, ?_⟩ ?_ ?_
  · rw [hP]
    intro v t ht hv _ h
    dsimp only at hv
    have := back_bound hb ht
    omega
  · rintro i ⟨s, c⟩ _ hi ⟨a1, a2, a3⟩
    dsimp only at a1 a2 a3 ⊢
    have hlt := back_lt hb hi
    have hbd := back_bound hb hi
    have hlo : -1 ≤ super.getD (i + 1) 0 := by
      rcases Nat.eq_or_lt_of_le (show i + 1 ≤ nodes by omega) with h | h
      · rw [h, h2]
      · have := back_bound hb h; omega
    rw [rd_getD 0 (show i < super.length by omega), ok_bind,
      rd_getD 0 (show i + 1 < super.length by omega), ok_bind]
    refine whileF_wp (fun (st : List Nat × Int) => st.1.length = n ∧ super.getD (i + 1) 0 ≤ st.2 ∧
      st.2 ≤ super.getD i 0 ∧ P st.2 st.1)
      (fun st => (st.2 - super.getD (i + 1) 0).toNat) ?_ _ _ (by dsimp only; omega)
      ⟨a1, by dsimp only; omega, by dsimp only; omega, a3⟩
    rintro ⟨s, c⟩ ⟨b1, b2, b3, b4⟩
    dsimp only at b1 b2 b3 b4 ⊢
    rw [wp_ok]
    by_cases hc : c ≤ super.getD i 0 ∧ super.getD (i + 1) 0 < c
    · rw [if_pos (by simpa using hc)]
      refine ⟨by omega, ?_⟩
      obtain ⟨m, rfl⟩ : ∃ m : Nat, c = (m : Int) := ⟨c.toNat, by omega⟩
      unfold wrZ
      rw [if_neg (by omega), Int.toNat_natCast, wr_eq (by omega), ok_bind, wp_ok]
      refine ⟨⟨by simp [b1], by dsimp only; omega, by dsimp only; omega, ?_⟩, by dsimp only; omega⟩
      rw [hP] at b4 ⊢
      intro v t ht hv v1 v2
      dsimp only at hv ⊢
      rw [getD_set]
      by_cases e : m = v
      · rw [if_pos ⟨e, by omega⟩]
        subst e
        rw [back_unique hb hi ht hc.2 hc.1 v1 v2]
      · rw [if_neg (fun x => e x.1)]
        exact b4 v t ht (by omega) v1 v2
    · rw [if_neg (by simpa using hc)]
      exact ⟨b1, by omega, b4⟩
  · rintro ⟨s, c⟩ ⟨a1, a2, a3⟩
    rw [wp_ok]
    refine ⟨a1, fun v t ht v1 v2 => ?_⟩
    dsimp only at a2 a3
    rw [hP] at a3
    exact a3 v t ht (by omega) v1 v2

theorem tail_iff (hb : BackOk super nodes n)
    (hs : ∀ (v t : Nat), t < nodes → super.getD (t + 1) 0 < (v : Int) → (v : Int) ≤ super.getD t 0 →
      sup.getD v 0 = (super.getD t 0).toNat) {r d : Nat} (hr : r < n) :
    sup.getD r 0 = d ↔ TailOf super nodes r d := by
  obtain ⟨t, h1, h2, h3⟩ := back_block hb hr
  have hbd := back_bound hb h1
  constructor
  · rintro rfl
    rw [hs r t h1 h2 h3]
    exact ⟨t, _, h1, by rw [back_get hb (by omega), Int.toNat_of_nonneg hbd.1], back_get hb (by omega), h2, by omega⟩
  · rintro ⟨t', b, h4, h5, h6, h7, h8⟩
    have e1 : super.getD t' 0 = (d : Int) := by rw [List.getD_eq_getElem?_getD, h5]; rfl
    have e2 : super.getD (t' + 1) 0 = b := by rw [List.getD_eq_getElem?_getD, h6]; rfl
    rw [hs r t' h4 (by omega) (by omega), e1, Int.toNat_natCast]

theorem mem_tails (hb : BackOk super nodes n) {c : Nat} :
    c ∈ (super.map Int.toNat).take nodes ↔ IsTail super nodes c := by
  rw [mem_take_iff]
  constructor
  · rintro ⟨t, h1, h2⟩
    rw [List.getElem?_map, back_get hb (by omega)] at h2
    have := back_bound hb h1
    simp only [Option.map_some, Option.some.injEq] at h2
    exact ⟨t, h1, by rw [back_get hb (by omega)]; congr 1; omega⟩
  · rintro ⟨t, h1, h2⟩
    exact ⟨t, h1, by rw [List.getElem?_map, h2]; simp⟩

theorem heads_last {g : Csc} (hwf : g.WF) (hb : BackOk super nodes g.n)
    (hs : ∀ (v t : Nat), t < nodes → super.getD (t + 1) 0 < (v : Int) → (v : Int) ≤ super.getD t 0 →
      sup.getD v 0 = (super.getD t 0).toNat) :
    Heads g.n ((super.map Int.toNat).take nodes) (allHeads g sup) := by
  have hl := back_len hb
  have hget : ∀ t, t < nodes → (super.map Int.toNat)[t]? = some (super.getD t 0).toNat := by
    intro t ht
    rw [List.getElem?_map, back_get hb (by omega)]; rfl
  have hlt : ∀ c ∈ (super.map Int.toNat).take nodes, c < g.n := by
    intro c hc
    obtain ⟨t, h1, h2⟩ := (mem_tails hb).1 hc
    have := back_bound hb h1
    have e1 : super.getD t 0 = (c : Int) := by rw [List.getD_eq_getElem?_getD, h2]; rfl
    omega
  refine ⟨?_, hlt, ?_⟩
  · rw [List.nodup_iff_injective_get]
    rintro ⟨a, ha⟩ ⟨b, hb'⟩ h
    simp only [List.length_take, List.length_map] at ha hb'
    have e1 := hget a (by omega)
    have e2 := hget b (by omega)
    simp only [List.get_eq_getElem, List.getElem_take] at h
    rw [List.getElem?_eq_getElem (by simp; omega)] at e1 e2
    simp only [Option.some.injEq] at e1 e2
    rw [Fin.mk.injEq]
    have h1 := back_bound hb (t := a) (by omega)
    have h2 := back_bound hb (t := b) (by omega)
    rcases Nat.lt_trichotomy a b with h' | h' | h'
    · have := back_anti hb h' (by omega); omega
    · exact h'
    · have := back_anti hb h' (by omega); omega
  · intro c hc d hd
    unfold allHeads at hd
    rw [List.mem_map] at hd
    obtain ⟨r, hr, hrd⟩ := hd
    have hrn := hwf.range c (hlt c hc) r (List.mem_reverse.1 hr)
    obtain ⟨t', _, h4, h5, _⟩ := (tail_iff hb hs hrn).1 hrd
    exact (mem_tails hb).2 ⟨t', h4, h5⟩

theorem colEdge_last {g : Csc} (hwf : g.WF) (hb : BackOk super nodes g.n)
    (hs : ∀ (v t : Nat), t < nodes → super.getD (t + 1) 0 < (v : Int) → (v : Int) ≤ super.getD t 0 →
      sup.getD v 0 = (super.getD t 0).toNat) {c d : Nat} :
    ColEdge ((super.map Int.toNat).take nodes) (allHeads g sup) c d ↔ TailEdge g super nodes c d := by
  unfold ColEdge TailEdge
  rw [mem_tails hb]
  refine and_congr_right (fun hc => and_congr_right (fun _ => ?_))
  have hcn := (heads_last hwf hb hs).lt c ((mem_tails hb).2 hc)
  unfold allHeads
  rw [List.mem_map]
  constructor
  · rintro ⟨r, hr, h⟩
    rw [List.mem_reverse] at hr
    exact ⟨r, hr, (tail_iff hb hs (hwf.range c hcn r hr)).1 h⟩
  · rintro ⟨r, hr, h⟩
    exact ⟨r, List.mem_reverse.2 hr, (tail_iff hb hs (hwf.range c hcn r hr)).2 h⟩

end Last

end Verif.FLevel
