import Verif.Model.Etree
import Verif.Spec.Fill
import Verif.ResLemmas
import Verif.Proof.Slices

/-!
# Proof: Liu's elimination tree algorithm
-/

namespace Verif.Etree
open Res Relation

/-- The tree edges among the first `b` nodes. -/
def Up (par : List (Option Nat)) (b x y : Nat) : Prop := x < b ∧ par.getD x none = some y

/-- `k` was made the parent of `x` because of an entry `j` in row `k`. -/
def Just (E : Nat → Nat → Prop) (R : Nat → Nat → Prop) (k x : Nat) : Prop :=
  ∃ j, E k j ∧ j < k ∧ ReflTransGen R j x

/-- The forest of the nodes below `b`; `cur` is the node that a climb has reached. -/
structure Inv (E : Nat → Nat → Prop) (n b : Nat) (cur : Option Nat) (s : Arrs) : Prop where
  plen : n ≤ s.par.length
  alen : n ≤ s.anc.length
  par : ∀ x p, Up s.par b x p → x < p ∧ p < b ∧ Just E (Up s.par b) p x
  root : ∀ x, x < b → (s.par.getD x none = none ↔ s.anc.getD x none = none)
  anc : ∀ x a, x < b → s.anc.getD x none = some a → x < a ∧ a < b ∧
    (TransGen (Up s.par b) x a ∨ (a + 1 = b ∧ ∃ c, cur = some c ∧ TransGen (Up s.par b) x c))

theorem trans_lt {R : Nat → Nat → Prop} (h : ∀ x y, R x y → x < y) {x y : Nat}
    (ht : TransGen R x y) : x < y := by
  induction ht with
  | single h1 => exact h _ _ h1
  | tail _ h1 ih => exact Nat.lt_trans ih (h _ _ h1)

theorem Inv.trans_lt {E n b cur s} (h : Inv E n b cur s) {x y : Nat}
    (ht : TransGen (Up s.par b) x y) : x < y :=
  Etree.trans_lt (fun x y hxy => (h.par x y hxy).1) ht

theorem Just.mono {E R R'} {k x : Nat} (h : Just E R k x) (hR : R ≤ R') : Just E R' k x := by
  obtain ⟨j, h1, h2, h3⟩ := h
  exact ⟨j, h1, h2, ReflTransGen.mono hR _ _ h3⟩

/-- What one visit of the node `c` does to the two arrays. -/
def visit (k c : Nat) (s : Arrs) : Arrs :=
  ⟨if s.anc.getD c none = none then s.par.set c (some k) else s.par, s.anc.set c (some k)⟩

section
variable {E : Nat → Nat → Prop} {n k c : Nat} {s : Arrs}

theorem up_set {par : List (Option Nat)} {b : Nat} (hc : c < b) (hl : c < par.length)
    (hn : par.getD c none = none) (x y : Nat) :
    Up (par.set c (some k)) b x y ↔ Up par b x y ∨ (x = c ∧ y = k) := by
  unfold Up
  rw [getD_set]
  by_cases h : c = x
  · subst h
    rw [if_pos ⟨rfl, hl⟩, hn]
    constructor
    · rintro ⟨_, h⟩; right; exact ⟨rfl, (Option.some.inj h).symm⟩
    · rintro (⟨_, h⟩ | ⟨_, h⟩)
      · cases h
      · exact ⟨hc, by rw [h]⟩
  · rw [if_neg (fun h' => h h'.1)]
    constructor
    · intro h; exact Or.inl h
    · rintro (h' | ⟨h', _⟩)
      · exact h'
      · exact absurd h'.symm h

/-- A visit keeps the invariant, moves the climb on and only adds edges. -/
theorem Inv.visit (h : Inv E n (k + 1) (some c) s) (hk : k < n) (hc : c < k) {i : Nat}
    (hi : ReflTransGen (Up s.par (k + 1)) i c) (hE : E k i) (hik : i < k) :
    (∀ a, s.anc.getD c none = some a → a < k →
      Inv E n (k + 1) (some a) (visit k c s) ∧ c < a ∧
      ReflTransGen (Up (visit k c s).par (k + 1)) i a) ∧
    ((s.anc.getD c none = none ∨ s.anc.getD c none = some k) →
      Inv E n (k + 1) none (visit k c s) ∧ TransGen (Up (visit k c s).par (k + 1)) i k) ∧
    Up s.par (k + 1) ≤ Up (visit k c s).par (k + 1) := by
  have hcl : c < s.par.length := by have := h.plen; omega
  have hcl' : c < s.anc.length := by have := h.alen; omega
  have hcb : c < k + 1 := by omega
  refine ⟨?_, ?_, ?_⟩
  · intro a ha hak
    have hv : Etree.visit k c s = ⟨s.par, s.anc.set c (some k)⟩ := by
      unfold Etree.visit; rw [ha]; rfl
    obtain ⟨h1, h2, h3⟩ := h.anc c a hcb ha
    have hca : TransGen (Up s.par (k + 1)) c a := by
      rcases h3 with h3 | ⟨h3, _⟩
      · exact h3
      · omega
    rw [hv]
    refine ⟨⟨h.plen, by simpa using h.alen, h.par, ?_, ?_⟩, h1, hi.trans hca.to_reflTransGen⟩
    · intro x hx
      dsimp only
      rw [getD_set]
      by_cases hcx : c = x
      · subst hcx
        rw [if_pos ⟨rfl, hcl'⟩, h.root c hcb, ha]; simp
      · rw [if_neg (fun h' => hcx h'.1)]; exact h.root x hx
    · intro x a' hx
      dsimp only
      rw [getD_set]
      by_cases hcx : c = x
      · subst hcx
        rw [if_pos ⟨rfl, hcl'⟩]
        intro he
        obtain rfl := Option.some.inj he
        exact ⟨hc, by omega, Or.inr ⟨rfl, a, rfl, hca⟩⟩
      · rw [if_neg (fun h' => hcx h'.1)]
        intro he
        obtain ⟨g1, g2, g3⟩ := h.anc x a' hx he
        refine ⟨g1, g2, ?_⟩
        rcases g3 with g3 | ⟨g3, c', hc', g4⟩
        · exact Or.inl g3
        · obtain rfl := Option.some.inj hc'
          exact Or.inr ⟨g3, a, rfl, g4.trans hca⟩
  · rintro (ha | ha)
    · have hv : Etree.visit k c s = ⟨s.par.set c (some k), s.anc.set c (some k)⟩ := by
        unfold Etree.visit; rw [ha]; rfl
      have hpn : s.par.getD c none = none := (h.root c hcb).2 ha
      have hup := up_set (k := k) hcb hcl hpn
      have hmono : Up s.par (k + 1) ≤ Up (s.par.set c (some k)) (k + 1) :=
        fun x y hxy => (hup x y).2 (Or.inl hxy)
      have hck : Up (s.par.set c (some k)) (k + 1) c k := (hup c k).2 (Or.inr ⟨rfl, rfl⟩)
      have hik' := ReflTransGen.mono hmono _ _ hi
      rw [hv]
      refine ⟨⟨by simpa using h.plen, by simpa using h.alen, ?_, ?_, ?_⟩, TransGen.tail' hik' hck⟩
      · intro x p hx
        rcases (hup x p).1 hx with hx | ⟨rfl, rfl⟩
        · obtain ⟨g1, g2, g3⟩ := h.par x p hx
          exact ⟨g1, g2, g3.mono hmono⟩
        · exact ⟨hc, by omega, i, hE, hik, hik'⟩
      · intro x hx
        dsimp only
        rw [getD_set, getD_set]
        by_cases hcx : c = x
        · subst hcx
          rw [if_pos ⟨rfl, hcl⟩, if_pos ⟨rfl, hcl'⟩]
        · rw [if_neg (fun h' => hcx h'.1), if_neg (fun h' => hcx h'.1)]; exact h.root x hx
      · intro x a' hx
        dsimp only
        rw [getD_set]
        by_cases hcx : c = x
        · subst hcx
          rw [if_pos ⟨rfl, hcl'⟩]
          intro he
          obtain rfl := Option.some.inj he
          exact ⟨hc, by omega, Or.inl (TransGen.single hck)⟩
        · rw [if_neg (fun h' => hcx h'.1)]
          intro he
          obtain ⟨g1, g2, g3⟩ := h.anc x a' hx he
          refine ⟨g1, g2, Or.inl ?_⟩
          rcases g3 with g3 | ⟨g3, c', hc', g4⟩
          · exact TransGen.mono hmono _ _ g3
          · obtain rfl := Option.some.inj hc'
            obtain rfl : a' = k := by omega
            exact TransGen.tail (TransGen.mono hmono _ _ g4) hck
    · have hv : Etree.visit k c s = ⟨s.par, s.anc.set c (some k)⟩ := by
        unfold Etree.visit; rw [ha]; rfl
      have hck : TransGen (Up s.par (k + 1)) c k := by
        obtain ⟨_, _, h3⟩ := h.anc c k hcb ha
        rcases h3 with h3 | ⟨_, c', hc', h4⟩
        · exact h3
        · obtain rfl := Option.some.inj hc'
          exact absurd (h.trans_lt h4) (by omega)
      rw [hv]
      refine ⟨⟨h.plen, by simpa using h.alen, h.par, ?_, ?_⟩, TransGen.trans_right hi hck⟩
      · intro x hx
        dsimp only
        rw [getD_set]
        by_cases hcx : c = x
        · subst hcx
          rw [if_pos ⟨rfl, hcl'⟩, h.root c hcb, ha]
        · rw [if_neg (fun h' => hcx h'.1)]; exact h.root x hx
      · intro x a' hx
        dsimp only
        rw [getD_set]
        by_cases hcx : c = x
        · subst hcx
          rw [if_pos ⟨rfl, hcl'⟩]
          intro he
          obtain rfl := Option.some.inj he
          exact ⟨hc, by omega, Or.inl hck⟩
        · rw [if_neg (fun h' => hcx h'.1)]
          intro he
          obtain ⟨g1, g2, g3⟩ := h.anc x a' hx he
          refine ⟨g1, g2, Or.inl ?_⟩
          rcases g3 with g3 | ⟨g3, c', hc', g4⟩
          · exact g3
          · obtain rfl := Option.some.inj hc'
            obtain rfl : a' = k := by omega
            exact g4.trans hck
  · unfold Etree.visit
    split
    · rename_i ha
      exact fun x y hxy => (up_set (k := k) hcb hcl ((h.root c hcb).2 ha) x y).2 (Or.inl hxy)
    · exact le_refl _

/-- Only nodes below `k` change, and no length changes. -/
structure Above (k : Nat) (s s' : Arrs) : Prop where
  plen : s'.par.length = s.par.length
  alen : s'.anc.length = s.anc.length
  same : ∀ x, k ≤ x →
    s'.par.getD x none = s.par.getD x none ∧ s'.anc.getD x none = s.anc.getD x none

theorem Above.refl (k : Nat) (s : Arrs) : Above k s s := ⟨rfl, rfl, fun _ _ => ⟨rfl, rfl⟩⟩

theorem Above.visit (hc : c < k) : Above k s (Etree.visit k c s) := by
  unfold Etree.visit
  refine ⟨by dsimp only; split <;> simp, by simp, ?_⟩
  intro x hx
  dsimp only
  constructor
  · split
    · rw [getD_set, if_neg (by omega)]
    · rfl
  · rw [getD_set, if_neg (by omega)]

theorem Above.trans {s s' s'' : Arrs} (h : Above k s s') (h' : Above k s' s'') : Above k s s'' :=
  ⟨h'.plen.trans h.plen, h'.alen.trans h.alen, fun x hx =>
    ⟨(h'.same x hx).1.trans (h.same x hx).1, (h'.same x hx).2.trans (h.same x hx).2⟩⟩

/-- What the climb from the entry `i` of row `k` achieves. -/
structure Climbed (E : Nat → Nat → Prop) (n k i : Nat) (s s' : Arrs) : Prop where
  inv : Inv E n (k + 1) none s'
  ext : Up s.par (k + 1) ≤ Up s'.par (k + 1)
  reach : i < k → TransGen (Up s'.par (k + 1)) i k
  above : Above k s s'

theorem Inv.start (h : Inv E n (k + 1) none s) (c : Option Nat) : Inv E n (k + 1) c s :=
  ⟨h.plen, h.alen, h.par, h.root, fun x a hx ha => by
    obtain ⟨g1, g2, g3⟩ := h.anc x a hx ha
    rcases g3 with g3 | ⟨_, _, h', _⟩
    · exact ⟨g1, g2, Or.inl g3⟩
    · cases h'⟩

theorem climb_wp (debug : Bool) (hk : k < n) {i : Nat} (h : Inv E n (k + 1) none s) (hE : E k i) :
    wp (climb debug n k i s) (Climbed E n k i s) := by
  unfold climb
  simp only [wp_bind, wp_ok]
  by_cases hik : i < k
  swap
  · have : whileF k (fun (s : Option Nat × Arrs) => ok (below k s.1)) (climbStep debug n k)
        (some i, s) = ok (some i, s) := by
      cases k <;> simp [whileF, below, hik]
    rw [this]
    exact ⟨h, le_refl _, fun h => absurd h hik, Above.refl _ _⟩
  apply whileF_wp
    (fun (t : Option Nat × Arrs) => Above k s t.2 ∧ Up s.par (k + 1) ≤ Up t.2.par (k + 1) ∧
      ((∃ c, t.1 = some c ∧ c < k ∧ Inv E n (k + 1) (some c) t.2 ∧
          ReflTransGen (Up t.2.par (k + 1)) i c) ∨
        ((t.1 = none ∨ t.1 = some k) ∧ Inv E n (k + 1) none t.2 ∧
          TransGen (Up t.2.par (k + 1)) i k)))
    (fun t => match t.1 with
      | none => 0
      | some c => k - c)
  · rintro ⟨t, r⟩ ⟨hab, hle, hI⟩
    dsimp only at hab hle hI ⊢
    rcases hI with ⟨c, rfl, hck, hinv, hic⟩ | ⟨ht, hinv, hr⟩
    · simp only [wp_ok, below, hck, decide_true, if_true]
      refine ⟨by omega, ?_⟩
      have hca : c < r.anc.length := by have := hinv.alen; omega
      have hcp : c < r.par.length := by have := hinv.plen; omega
      have hstep : climbStep debug n k (some c, r)
          = ok (r.anc.getD c none, visit k c r) := by
        unfold climbStep
        dsimp only
        rw [if_neg (by omega), rd_getD none hca, wr_eq hca]
        simp only [ok_bind]
        unfold visit
        split
        · rw [wr_eq hcp]; simp [*]
        · rfl
      rw [hstep]
      simp only [wp_ok]
      obtain ⟨v1, v2, v3⟩ := hinv.visit hk hck hic hE hik
      have hab' := hab.trans (Above.visit hck)
      cases hra : r.anc.getD c none with
      | none =>
        obtain ⟨w1, w2⟩ := v2 (Or.inl hra)
        exact ⟨⟨hab', hle.trans v3, Or.inr ⟨Or.inl rfl, w1, w2⟩⟩, by dsimp only; omega⟩
      | some a =>
        obtain ⟨g1, g2, -⟩ := hinv.anc c a (by omega) hra
        by_cases hak : a < k
        · obtain ⟨w1, w2, w3⟩ := v1 a hra hak
          exact ⟨⟨hab', hle.trans v3, Or.inl ⟨a, rfl, hak, w1, w3⟩⟩, by dsimp only; omega⟩
        · obtain rfl : a = k := by omega
          obtain ⟨w1, w2⟩ := v2 (Or.inr hra)
          exact ⟨⟨hab', hle.trans v3, Or.inr ⟨Or.inr rfl, w1, w2⟩⟩, by dsimp only; omega⟩
    · have hQ : Climbed E n k i s r := ⟨hinv, hle, fun _ => hr, hab⟩
      rcases ht with rfl | rfl
      · simpa [below] using hQ
      · simpa [below] using hQ
  · dsimp only; omega
  · exact ⟨Above.refl _ _, le_refl _, Or.inl ⟨i, rfl, hik, h.start _, ReflTransGen.refl⟩⟩

theorem update_wp (hk : k < n) {i : Nat} (hik : i < k) (h : Inv E n (k + 1) none s) (hE : E k i) :
    wp (updateEtree (n + 1) i k s) (Climbed E n k i s) := by
  unfold updateEtree
  apply loopF_wp
    (fun (t : Nat × Arrs) => Above k s t.2 ∧ Up s.par (k + 1) ≤ Up t.2.par (k + 1) ∧
      t.1 < k ∧ Inv E n (k + 1) (some t.1) t.2 ∧ ReflTransGen (Up t.2.par (k + 1)) i t.1)
    (fun t => k - t.1)
  · rintro ⟨c, r⟩ ⟨hab, hle, hck, hinv, hic⟩
    dsimp only at hab hle hck hinv hic ⊢
    have hca : c < r.anc.length := by have := hinv.alen; omega
    have hcp : c < r.par.length := by have := hinv.plen; omega
    rw [rd_getD none hca]
    simp only [ok_bind]
    obtain ⟨v1, v2, v3⟩ := hinv.visit hk hck hic hE hik
    have hab' := hab.trans (Above.visit (s := r) hck)
    cases hra : r.anc.getD c none with
    | none =>
      obtain ⟨w1, w2⟩ := v2 (Or.inl hra)
      have hv : visit k c r = ⟨r.par.set c (some k), r.anc.set c (some k)⟩ := by
        unfold visit; rw [hra]; rfl
      rw [if_neg (by simp), wr_eq hca]
      simp only [ok_bind]
      rw [wr_eq hcp]
      simp only [ok_bind, wp_ok, Ctl.post]
      rw [← hv]
      exact ⟨w1, hle.trans v3, fun _ => w2, hab'⟩
    | some a =>
      have hv : visit k c r = ⟨r.par, r.anc.set c (some k)⟩ := by
        unfold visit; rw [hra]; rfl
      obtain ⟨g1, g2, -⟩ := hinv.anc c a (by omega) hra
      by_cases hak : a < k
      · obtain ⟨w1, w2, w3⟩ := v1 a hra hak
        rw [if_neg (by simp; omega), wr_eq hca]
        simp only [ok_bind, wp_ok, Ctl.post]
        rw [hv] at w1 w3 v3 hab'
        exact ⟨⟨hab', hle.trans v3, hak, w1, w3⟩, by omega⟩
      · obtain rfl : a = k := by omega
        obtain ⟨w1, w2⟩ := v2 (Or.inr hra)
        rw [if_pos rfl]
        simp only [wp_ok, Ctl.post]
        have hset : r.anc.set c (some a) = r.anc := by
          apply List.ext_getElem?
          intro x
          rw [List.getElem?_set]
          split
          · rename_i hx; subst hx
            rw [List.getD_eq_getElem?_getD, List.getElem?_eq_getElem hca] at hra
            rw [List.getElem?_eq_getElem hca]
            exact congrArg some hra.symm
          · rfl
        rw [hset] at hv
        rw [hv] at w1 w2 v3 hab'
        exact ⟨w1, hle.trans v3, fun _ => w2, hab'⟩
  · dsimp only; omega
  · exact ⟨Above.refl _ _, le_refl _, hik, h.start _, ReflTransGen.refl⟩

/-- A new node without parent joins the forest. -/
theorem Inv.grow {cur : Option Nat} (h : Inv E n k none s) (hp : s.par.getD k none = none)
    (ha : s.anc.getD k none = none) :
    Inv E n (k + 1) cur s ∧ ∀ x y, Up s.par (k + 1) x y ↔ Up s.par k x y := by
  have hup : ∀ x y, Up s.par (k + 1) x y ↔ Up s.par k x y := by
    intro x y
    unfold Up
    constructor
    · rintro ⟨h1, h2⟩
      refine ⟨?_, h2⟩
      by_contra h3
      obtain rfl : x = k := by omega
      rw [hp] at h2; cases h2
    · rintro ⟨h1, h2⟩; exact ⟨by omega, h2⟩
  have heq : Up s.par (k + 1) = Up s.par k := by
    funext x y; exact propext (hup x y)
  refine ⟨⟨h.plen, h.alen, ?_, ?_, ?_⟩, hup⟩
  · intro x p hx
    rw [heq] at hx ⊢
    obtain ⟨g1, g2, g3⟩ := h.par x p hx
    exact ⟨g1, by omega, g3⟩
  · intro x hx
    by_cases hxk : x = k
    · subst hxk; rw [hp, ha]
    · exact h.root x (by omega)
  · intro x a hx hxa
    rw [heq]
    by_cases hxk : x = k
    · subst hxk; rw [ha] at hxa; cases hxa
    · obtain ⟨g1, g2, g3⟩ := h.anc x a (by omega) hxa
      rcases g3 with g3 | ⟨_, _, h', _⟩
      · exact ⟨g1, by omega, Or.inl g3⟩
      · cases h'

end

/-! ### From the forest to the elimination tree -/

/-- Nodes on a path out of one node are comparable when every node has at most one parent. -/
theorem chain {R : Nat → Nat → Prop} (hinc : ∀ x y, R x y → x < y)
    (hu : ∀ x y z, R x y → R x z → y = z) {m i k : Nat} (h1 : TransGen R m i)
    (h2 : TransGen R m k) (hik : i < k) : TransGen R i k := by
  induction h1 using TransGen.head_induction_on with
  | single h =>
    rcases TransGen.head'_iff.1 h2 with ⟨c, hc, hck⟩
    obtain rfl := hu _ _ _ h hc
    rcases reflTransGen_iff_eq_or_transGen.1 hck with h | h
    · omega
    · exact h
  | head h h' ih =>
    rcases TransGen.head'_iff.1 h2 with ⟨c, hc, hck⟩
    obtain rfl := hu _ _ _ h hc
    apply ih
    rcases reflTransGen_iff_eq_or_transGen.1 hck with h3 | h3
    · subst h3
      have := Etree.trans_lt hinc h'
      omega
    · exact h3

/-- A forest whose edges are justified by entries and that covers all entries is the elimination
tree. -/
theorem etree_of_forest {E : Nat → Nat → Prop} {n : Nat} {P : Nat → Option Nat}
    (hpar : ∀ x p, x < n → P x = some p → x < p ∧ p < n ∧
      Just E (fun x y => x < n ∧ P x = some y) p x)
    (hcov : ∀ k i, E k i → i < k → TransGen (fun x y => x < n ∧ P x = some y) i k) :
    (∀ j, j < n → IsEtreeParent E n j (P j)) ∧
    ∀ k i, Fill E k i → TransGen (fun x y => x < n ∧ P x = some y) i k := by
  have hinc : ∀ x y, (x < n ∧ P x = some y) → x < y := fun x y h => (hpar x y h.1 h.2).1
  have hu : ∀ x y z, (x < n ∧ P x = some y) → (x < n ∧ P x = some z) → y = z :=
    fun x y z h h' => Option.some.inj (h.2.symm.trans h'.2)
  have hanc : ∀ k i, Fill E k i → TransGen (fun x y => x < n ∧ P x = some y) i k := by
    intro k i h
    induction h with
    | entry h1 h2 => exact hcov _ _ h2 h1
    | fill h1 h2 _ _ ih1 ih2 => exact chain hinc hu ih2 ih1 h2
  have hfill : ∀ x, ∀ p, x < n → P x = some p → Fill E p x := by
    intro x
    induction x using Nat.strongRecOn with
    | ind x ih =>
      intro p hx hp
      obtain ⟨h1, h2, j, hj, hjp, hpath⟩ := hpar x p hx hp
      have key : ∀ y, ReflTransGen (fun x y => x < n ∧ P x = some y) j y → y ≤ x → Fill E p y := by
        intro y hy
        induction hy with
        | refl => intro _; exact Fill.entry hjp hj
        | tail hab hbc ih' =>
          rename_i b c
          intro hcx
          have hbc' := hinc _ _ hbc
          exact Fill.fill hbc' (by omega) (ih' (by omega)) (ih b (by omega) c hbc.1 hbc.2)
      exact key x hpath (Nat.le_refl _)
  refine ⟨?_, hanc⟩
  intro j hj
  cases hP : P j with
  | some p =>
    refine ⟨(hpar j p hj hP).2.1, hfill j p hj hP, ?_⟩
    intro k hk
    rcases TransGen.head'_iff.1 (hanc k j hk) with ⟨c, hc, hck⟩
    obtain rfl := Option.some.inj (hP.symm.trans hc.2)
    rcases reflTransGen_iff_eq_or_transGen.1 hck with h | h
    · omega
    · exact Nat.le_of_lt (Etree.trans_lt hinc h)
  | none =>
    intro k hk hf
    rcases TransGen.head'_iff.1 (hanc k j hf) with ⟨c, hc, hck⟩
    rw [hP] at hc; cases hc.2

/-! ### `computeParents` -/

theorem forEach_covered {E : Nat → Nat → Prop} {n k : Nat} (f : Nat → Arrs → Res Arrs)
    (l : List Nat) (hf : ∀ i ∈ l, ∀ s, Inv E n (k + 1) none s →
      wp (f i s) (Climbed E n k i s)) (s : Arrs) (h : Inv E n (k + 1) none s) :
    wp (forEach l f s) (fun s' => Inv E n (k + 1) none s' ∧
      Up s.par (k + 1) ≤ Up s'.par (k + 1) ∧
      (∀ i ∈ l, i < k → TransGen (Up s'.par (k + 1)) i k) ∧ Above k s s') := by
  have := forEach_wp (f := f) (fun (pre : List Nat) (s' : Arrs) => Inv E n (k + 1) none s' ∧
      Up s.par (k + 1) ≤ Up s'.par (k + 1) ∧
      (∀ i ∈ pre, i < k → TransGen (Up s'.par (k + 1)) i k) ∧ Above k s s') l [] s
    ⟨h, le_refl _, by simp, Above.refl _ _⟩ ?_
  · simpa using this
  · rintro pre a q t hl ⟨h1, h2, h3, h4⟩
    have ha : a ∈ l := by
      have : a ∈ [] ++ l := by rw [hl]; simp
      simpa using this
    apply wp_mono (hf a ha t h1)
    intro t' c
    refine ⟨c.inv, h2.trans c.ext, ?_, h4.trans c.above⟩
    intro i hi hik
    rcases List.mem_append.1 hi with hi | hi
    · exact TransGen.mono c.ext _ _ (h3 i hi hik)
    · obtain rfl := List.mem_singleton.1 hi
      exact c.reach hik

theorem Inv.congr {E : Nat → Nat → Prop} {n b : Nat} {s s' : Arrs} (h : Inv E n b none s)
    (hp : n ≤ s'.par.length) (ha : n ≤ s'.anc.length)
    (he : ∀ x, x < b → s'.par.getD x none = s.par.getD x none ∧
      s'.anc.getD x none = s.anc.getD x none) :
    Inv E n b none s' ∧ Up s'.par b = Up s.par b := by
  have hup : Up s'.par b = Up s.par b := by
    funext x y
    unfold Up
    apply propext
    constructor
    · rintro ⟨h1, h2⟩; exact ⟨h1, by rw [← (he x h1).1]; exact h2⟩
    · rintro ⟨h1, h2⟩; exact ⟨h1, by rw [(he x h1).1]; exact h2⟩
  refine ⟨⟨hp, ha, ?_, ?_, ?_⟩, hup⟩
  · rw [hup]; exact h.par
  · intro x hx; rw [(he x hx).1, (he x hx).2]; exact h.root x hx
  · intro x a hx hxa
    rw [(he x hx).2] at hxa
    rw [hup]; exact h.anc x a hx hxa

theorem Inv.zero (E : Nat → Nat → Prop) {n : Nat} {s : Arrs} (hp : n ≤ s.par.length)
    (ha : n ≤ s.anc.length) : Inv E n 0 none s :=
  ⟨hp, ha, fun _ _ h => absurd h.1 (by omega), fun _ h => absurd h (by omega),
    fun _ _ h => absurd h (by omega)⟩

/-- The whole result of one of the algorithms: a justified forest that covers the entries. -/
structure Done (E : Nat → Nat → Prop) (n : Nat) (par : List (Option Nat)) : Prop where
  edge : ∀ x p, Up par n x p → x < p ∧ p < n ∧ Just E (Up par n) p x
  cov : ∀ k i, E k i → i < k → TransGen (Up par n) i k

theorem computeParents_wp (debug : Bool) {g : Csc} (hpl : g.p.length = g.n + 1)
    (hmono : ∀ u, u < g.n → g.ptr u ≤ g.ptr (u + 1))
    (hbound : ∀ u, u ≤ g.n → g.ptr u ≤ g.i.length) :
    wp (computeParents debug g.n g.p g.i) (fun par => par.length = g.n ∧
      Done (fun k i => k < g.n ∧ i ∈ g.col k) g.n par) := by
  unfold computeParents
  simp only [wp_bind, wp_ok]
  apply forRange_wp' (fun k (s : Arrs) => s.par.length = g.n ∧ s.anc.length = g.n ∧
    Inv (fun k i => k < g.n ∧ i ∈ g.col k) g.n k none s ∧
    ∀ k', k' < k → ∀ i ∈ g.col k', i < k' → TransGen (Up s.par k) i k') (Nat.zero_le _)
  · exact ⟨by simp, by simp, Inv.zero _ (by simp) (by simp), fun _ h => absurd h (by omega)⟩
  · rintro k s - hk ⟨hp, ha, hinv, hcov⟩
    rw [wr_eq (by omega), ok_bind, wr_eq (by omega), ok_bind]
    rw [rd_getD 0 (by omega), ok_bind, rd_getD 0 (by omega), ok_bind]
    have hsl := forRange_rd g.i (fun i s => climb debug g.n k i s)
      (g.ptr (k + 1) - g.ptr k) (g.ptr k) ⟨s.par.set k none, s.anc.set k none⟩
      (by have := hmono k hk; have := hbound (k + 1) hk; omega)
    have hc := hinv.congr (s' := ⟨s.par.set k none, s.anc.set k none⟩) (by simp; omega)
      (by simp; omega) (fun x hx => by
        dsimp only
        rw [getD_set, getD_set, if_neg (by omega), if_neg (by omega)]; exact ⟨rfl, rfl⟩)
    have hpk : (s.par.set k none).getD k none = none := by
      rw [getD_set, if_pos ⟨rfl, by omega⟩]
    have hak : (s.anc.set k none).getD k none = none := by
      rw [getD_set, if_pos ⟨rfl, by omega⟩]
    obtain ⟨hi', hup⟩ := hc.1.grow (cur := none) hpk hak
    have hsl' : forRange (g.p.getD k 0) (g.p.getD (k + 1) 0) (fun q s => do
          let i ← rd g.i q
          climb debug g.n k i s) ⟨s.par.set k none, s.anc.set k none⟩
        = forEach (g.col k) (fun i s => climb debug g.n k i s)
          ⟨s.par.set k none, s.anc.set k none⟩ := hsl
    rw [hsl']
    apply wp_mono (forEach_covered _ (g.col k)
      (fun i hi s hs => climb_wp debug hk hs ⟨hk, hi⟩) _ hi')
    rintro t ⟨t1, t2, t3, t4⟩
    refine ⟨by rw [t4.plen]; simpa using hp, by rw [t4.alen]; simpa using ha, t1, ?_⟩
    intro k' hk' i hi hik
    by_cases hkk : k' = k
    · subst hkk; exact t3 i hi hik
    · apply TransGen.mono _ _ _ (hcov k' (by omega) i hi hik)
      intro x y hxy
      apply t2
      rw [hup, hc.2]
      exact hxy
  · rintro s ⟨hp, ha, hinv, hcov⟩
    exact ⟨hp, hinv.par, fun k i h hik => hcov k h.1 i h.2 hik⟩

end Verif.Etree
