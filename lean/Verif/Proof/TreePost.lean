import Verif.Model.TreePost
import Verif.Spec.Forest
import Verif.ResLemmas
import Mathlib.Data.List.Perm.Basic
import Mathlib.Data.List.Nodup
import Mathlib.Data.List.Flatten

/-!
# Lemmas about `tree_post_order`
-/

namespace Verif.TreePost
open Res Relation

/-! ## The post order of a subtree -/

def postF (kids : Nat → List Nat) : Nat → Nat → List Nat
  | 0, _ => []
  | f + 1, j => (kids j).flatMap (postF kids f) ++ [j]

/-- The post order of the subtree of `j`. -/
def postOf (kids : Nat → List Nat) (j : Nat) : List Nat := postF kids (j + 1) j

/-- `kids` lists the children of every node. -/
structure Kids (n : Nat) (par : Nat → Option Nat) (kids : Nat → List Nat) : Prop where
  forest : Forest n par
  mem : ∀ p c, c ∈ kids p ↔ ChildOf n par c p
  nodup : ∀ p, (kids p).Nodup

section Tree

variable {n : Nat} {par : Nat → Option Nat} {kids : Nat → List Nat}

theorem Kids.lt (hk : Kids n par kids) {c p : Nat} (h : ChildOf n par c p) : c < p ∧ p < n :=
  hk.forest c p h.1 h.2

theorem postF_eq (hk : Kids n par kids) : ∀ (f g j : Nat), j < f → j < g →
    postF kids f j = postF kids g j := by
  intro f
  induction f with
  | zero => intro g j h; omega
  | succ f ih =>
    intro g j hf hg
    obtain ⟨g, rfl⟩ : ∃ g', g = g' + 1 := ⟨g - 1, by omega⟩
    simp only [postF]
    congr 1
    apply List.flatMap_congr
    intro c hc
    have := hk.lt ((hk.mem j c).1 hc)
    exact ih g c (by omega) (by omega)

theorem postOf_eq (hk : Kids n par kids) (j : Nat) :
    postOf kids j = (kids j).flatMap (postOf kids) ++ [j] := by
  unfold postOf
  rw [postF]
  congr 1
  apply List.flatMap_congr
  intro c hc
  have := hk.lt ((hk.mem j c).1 hc)
  exact postF_eq hk _ _ c (by omega) (by omega)

theorem mem_postOf (hk : Kids n par kids) : ∀ (j x : Nat),
    x ∈ postOf kids j ↔ ReflTransGen (ChildOf n par) x j := by
  intro j
  induction j using Nat.strong_induction_on with
  | _ j ih =>
    intro x
    rw [postOf_eq hk]
    simp only [List.mem_append, List.mem_flatMap, List.mem_singleton]
    constructor
    · rintro (⟨c, hc, hx⟩ | rfl)
      · have hc := (hk.mem j c).1 hc
        exact ((ih c (hk.lt hc).1 x).1 hx).tail hc
      · exact .refl
    · intro h
      rcases ReflTransGen.cases_tail h with h | ⟨c, hx, hc⟩
      · exact .inr h.symm
      · exact .inl ⟨c, (hk.mem j c).2 hc, (ih c (hk.lt hc).1 x).2 hx⟩

theorem Kids.le (hk : Kids n par kids) {a b : Nat} (h : ReflTransGen (ChildOf n par) a b) : a ≤ b := by
  induction h with
  | refl => exact le_refl _
  | tail _ h ih => exact le_trans ih (hk.lt h).1.le

theorem chain_or {a b c : Nat} (h : ReflTransGen (ChildOf n par) a b)
    (h' : ReflTransGen (ChildOf n par) a c) :
    ReflTransGen (ChildOf n par) b c ∨ ReflTransGen (ChildOf n par) c b := by
  induction h with
  | refl => exact .inl h'
  | tail _ hs ih =>
    rename_i u v _
    rcases ih with hu | hu
    · rcases ReflTransGen.cases_head hu with rfl | ⟨w, hw, hwc⟩
      · exact .inr (.single hs)
      · have : w = v := by
          have := hw.2.symm.trans hs.2
          exact Option.some.inj this
        subst this
        exact .inl hwc
    · exact .inr (hu.tail hs)

theorem siblings_disjoint (hk : Kids n par kids) {a b p x : Nat} (ha : ChildOf n par a p)
    (hb : ChildOf n par b p) (hxa : ReflTransGen (ChildOf n par) x a)
    (hxb : ReflTransGen (ChildOf n par) x b) : a = b := by
  have key : ∀ {a b : Nat}, ChildOf n par a p → ChildOf n par b p →
      ReflTransGen (ChildOf n par) a b → a = b := by
    intro a b ha hb h
    rcases ReflTransGen.cases_head h with rfl | ⟨w, hw, hwc⟩
    · rfl
    · have : w = p := Option.some.inj (hw.2.symm.trans ha.2)
      subst this
      have := hk.le hwc
      have := (hk.lt hb).1
      omega
  rcases chain_or hxa hxb with h | h
  · exact key ha hb h
  · exact (key hb ha h).symm

theorem roots_disjoint {a b x : Nat} (ha : par a = none)
    (hb : par b = none) (hxa : ReflTransGen (ChildOf n par) x a)
    (hxb : ReflTransGen (ChildOf n par) x b) : a = b := by
  have key : ∀ {a b : Nat}, par a = none → ReflTransGen (ChildOf n par) a b → a = b := by
    intro a b ha h
    rcases ReflTransGen.cases_head h with rfl | ⟨w, hw, hwc⟩
    · rfl
    · have := hw.2; rw [ha] at this; cases this
  rcases chain_or hxa hxb with h | h
  · exact key ha h
  · exact (key hb h).symm

theorem nodup_flatMap_of {l : List Nat} {f : Nat → List Nat} (hl : l.Nodup)
    (hf : ∀ a ∈ l, (f a).Nodup) (hd : ∀ a ∈ l, ∀ b ∈ l, ∀ x, x ∈ f a → x ∈ f b → a = b) :
    (l.flatMap f).Nodup := by
  rw [List.nodup_flatMap]
  refine ⟨hf, ?_⟩
  refine List.Pairwise.imp_of_mem ?_ hl
  intro a b ha hb hne
  simp only [Function.onFun, List.Disjoint]
  intro x hxa hxb
  exact hne (hd a ha b hb x hxa hxb)

theorem nodup_postOf (hk : Kids n par kids) : ∀ j, (postOf kids j).Nodup := by
  intro j
  induction j using Nat.strong_induction_on with
  | _ j ih =>
    have hl : ((kids j).flatMap (postOf kids)).Nodup := by
      apply nodup_flatMap_of (hk.nodup j)
      · intro c hc
        exact ih c (hk.lt ((hk.mem j c).1 hc)).1
      · intro a ha b hb x hxa hxb
        exact siblings_disjoint hk ((hk.mem j a).1 ha) ((hk.mem j b).1 hb)
          ((mem_postOf hk a x).1 hxa) ((mem_postOf hk b x).1 hxb)
    rw [postOf_eq hk]
    refine List.Nodup.append hl (List.nodup_singleton j) ?_
    intro x hx hj
    rw [List.mem_singleton] at hj
    subst hj
    obtain ⟨c, hc, hx⟩ := List.mem_flatMap.1 hx
    have h1 := hk.le ((mem_postOf hk c x).1 hx)
    have h2 := (hk.lt ((hk.mem x c).1 hc)).1
    omega

/-- The roots. -/
def rootsOf (n : Nat) (par : Nat → Option Nat) : List Nat :=
  (List.range n).filter (fun j => par j = none)

theorem nodup_roots (hk : Kids n par kids) (m : Nat) : ((rootsOf m par).flatMap (postOf kids)).Nodup := by
  apply nodup_flatMap_of (List.Nodup.filter _ List.nodup_range)
  · intro a _; exact nodup_postOf hk a
  · intro a ha b hb x hxa hxb
    exact roots_disjoint (by simpa using (List.mem_filter.1 ha).2) (by simpa using (List.mem_filter.1 hb).2)
      ((mem_postOf hk a x).1 hxa) ((mem_postOf hk b x).1 hxb)

theorem desc_lt (hk : Kids n par kids) {x j : Nat} (hj : j < n) (h : ReflTransGen (ChildOf n par) x j) :
    x < n := lt_of_le_of_lt (hk.le h) hj

theorem exists_root (hk : Kids n par kids) : ∀ (m x : Nat), n - x ≤ m → x < n →
    ∃ r, r < n ∧ par r = none ∧ ReflTransGen (ChildOf n par) x r := by
  intro m
  induction m with
  | zero => intro x h h'; omega
  | succ m ih =>
    intro x h hx
    cases hp : par x with
    | none => exact ⟨x, hx, hp, .refl⟩
    | some p =>
      have := hk.forest x p hx hp
      obtain ⟨r, h1, h2, h3⟩ := ih p (by omega) this.2
      exact ⟨r, h1, h2, .head ⟨hx, hp⟩ h3⟩

theorem infix_flatMap {l : List Nat} {f : Nat → List Nat} {a : Nat} (h : a ∈ l) :
    (f a) <:+: (l.flatMap f) := by
  obtain ⟨s, t, rfl⟩ := List.append_of_mem h
  refine ⟨s.flatMap f, t.flatMap f, ?_⟩
  simp [List.flatMap_append]

theorem infix_post (hk : Kids n par kids) {x j : Nat} (h : ReflTransGen (ChildOf n par) x j) :
    postOf kids x <:+: postOf kids j := by
  induction h with
  | refl => exact List.infix_rfl
  | tail _ hs ih =>
    rename_i u v _
    refine ih.trans ?_
    rw [postOf_eq hk v]
    exact (infix_flatMap ((hk.mem v u).2 hs)).trans (List.prefix_append _ _).isInfix

theorem sublist_of_pairwise {l : List Nat} {R : Nat → Nat → Prop} (h : l.Pairwise R) {c d : Nat}
    (hc : c ∈ l) (hd : d ∈ l) (hne : c ≠ d) (hR : ¬ R d c) : [c, d].Sublist l := by
  obtain ⟨s, t, rfl⟩ := List.append_of_mem hc
  rcases List.mem_append.1 hd with hd | hd
  · exact absurd ((List.pairwise_append.1 h).2.2 d hd c List.mem_cons_self) hR
  · rcases List.mem_cons.1 hd with hd | hd
    · exact absurd hd.symm hne
    · exact List.Sublist.trans (List.Sublist.cons_cons c (List.singleton_sublist.2 hd))
        (List.sublist_append_right _ _)

theorem sublist_flatMap {l : List Nat} {f : Nat → List Nat} {a b x y : Nat} (h : [a, b].Sublist l)
    (hx : x ∈ f a) (hy : y ∈ f b) : [x, y].Sublist (l.flatMap f) := by
  have h1 : ([a, b].flatMap f).Sublist (l.flatMap f) := h.flatMap f
  refine List.Sublist.trans ?_ h1
  simp only [List.flatMap_cons, List.flatMap_nil, List.append_nil]
  exact List.Sublist.append (List.singleton_sublist.2 hx) (List.singleton_sublist.2 hy) 

theorem isPostOrder (hk : Kids n par kids) {before : Nat → Nat → Prop}
    (hb : ∀ c d p, ChildOf n par c p → ChildOf n par d p → before c d → [c, d].Sublist (kids p)) :
    IsPostOrder n par before ((rootsOf n par).flatMap (postOf kids)) := by
  have hinf : ∀ p, p < n → postOf kids p <:+: (rootsOf n par).flatMap (postOf kids) := by
    intro p hp
    obtain ⟨r, h1, h2, h3⟩ := exists_root hk _ p (le_refl _) hp
    refine (infix_post hk h3).trans (infix_flatMap ?_)
    exact List.mem_filter.2 ⟨List.mem_range.2 h1, by simpa using h2⟩
  constructor
  · rw [List.perm_ext_iff_of_nodup (nodup_roots hk n) List.nodup_range]
    intro x
    rw [List.mem_range]
    constructor
    · intro h
      obtain ⟨r, hr, hx⟩ := List.mem_flatMap.1 h
      exact desc_lt hk (List.mem_range.1 (List.mem_filter.1 hr).1) ((mem_postOf hk r x).1 hx)
    · intro h
      exact (hinf x h).subset ((mem_postOf hk x x).2 .refl)
  · intro p hp
    obtain ⟨a, b, h⟩ := hinf p hp
    refine ⟨a, (kids p).flatMap (postOf kids), b, ?_, ?_⟩
    · rw [← h, postOf_eq hk]; simp
    · intro x
      constructor
      · intro hx
        obtain ⟨c, hc, hx⟩ := List.mem_flatMap.1 hx
        exact TransGen.tail' ((mem_postOf hk c x).1 hx) ((hk.mem p c).1 hc)
      · intro hx
        obtain ⟨c, hx, hc⟩ := TransGen.tail'_iff.1 hx
        exact List.mem_flatMap.2 ⟨c, (hk.mem p c).2 hc, (mem_postOf hk c x).2 hx⟩
  · intro c d p hc hd hcd
    have h1 := sublist_flatMap (f := postOf kids) (hb c d p hc hd hcd)
      ((mem_postOf hk c c).2 .refl) ((mem_postOf hk d d).2 .refl)
    have h2 := (hinf p (hk.lt hc).2).sublist
    rw [postOf_eq hk] at h2
    exact (h1.trans (List.sublist_append_left _ _)).trans h2
  · intro c d hcd hd hpc hpd
    refine sublist_flatMap (f := postOf kids) (a := c) (b := d) ?_
      ((mem_postOf hk c c).2 .refl) ((mem_postOf hk d d).2 .refl)
    have hs : (rootsOf n par).Pairwise (· < ·) := List.Pairwise.filter _ List.pairwise_lt_range
    exact sublist_of_pairwise hs
      (List.mem_filter.2 ⟨List.mem_range.2 (by omega), by simpa using hpc⟩)
      (List.mem_filter.2 ⟨List.mem_range.2 hd, by simpa using hpd⟩) (by omega) (by omega)

end Tree

/-! ## Linked lists -/

/-- Starting with `h`, the links `next` lead through the nodes `l`. -/
def Chain (next : List (Option Nat)) : Option Nat → List Nat → Prop
  | h, [] => h = none
  | h, j :: l => h = some j ∧ j < next.length ∧ Chain next (next.getD j none) l

theorem Chain.set {next : List (Option Nat)} {j : Nat} {v : Option Nat} :
    ∀ {l : List Nat} {h : Option Nat}, j ∉ l → Chain next h l → Chain (next.set j v) h l := by
  intro l
  induction l with
  | nil => intro h _ hc; exact hc
  | cons a l ih =>
    intro h hj hc
    simp only [List.mem_cons, not_or] at hj
    refine ⟨hc.1, by rw [List.length_set]; exact hc.2.1, ?_⟩
    rw [getD_set, if_neg (fun hh => hj.1 hh.1)]
    exact ih hj.2 hc.2.2

/-- After the nodes `pre` have been put in front of the lists of their parents, in reverse order. -/
structure LinkInv (n : Nat) (par : Nat → Option Nat) (pre : List Nat) (s : Links) : Prop where
  hlen : s.head.length = n + 1
  nlen : s.next.length = n
  chain : ∀ p, p < n → Chain s.next (s.head.getD p none) (pre.filter (fun j => par j = some p))

section Link

variable {n : Nat} {par : Nat → Option Nat} {pre : List Nat} {s : Links}

theorem LinkInv.skip (h : LinkInv n par pre s) {j : Nat} (hj : par j = none) :
    LinkInv n par (j :: pre) s := by
  refine ⟨h.hlen, h.nlen, fun p hp => ?_⟩
  rw [List.filter_cons_of_neg (by simp [hj])]
  exact h.chain p hp

theorem link_wp (h : LinkInv n par pre s) {p j : Nat} (hp : p < n) (hj : j < n) (hpar : par j = some p)
    (hpre : j ∉ pre) : wp (link p j s) (fun s' => LinkInv n par (j :: pre) s' ∧
      ∀ h l, j ∉ l → Chain s.next h l → Chain s'.next h l) := by
  unfold link
  have h1 : p < s.head.length := by rw [h.hlen]; omega
  have h2 : j < s.next.length := by rw [h.nlen]; exact hj
  rw [rd_getD none h1]
  simp only [ok_bind]
  rw [wr_eq h2, wr_eq h1]
  simp only [ok_bind, wp_ok]
  refine ⟨⟨by simp [h.hlen], by simp [h.nlen], ?_⟩, fun _ _ hl hc => hc.set hl⟩
  intro q hq
  have hmem : ∀ q, j ∉ pre.filter (fun j => par j = some q) := fun q hm => hpre (List.mem_filter.1 hm).1
  dsimp only
  rw [getD_set]
  by_cases hqp : q = p
  · subst hqp
    rw [if_pos ⟨rfl, h1⟩, List.filter_cons_of_pos (by simp [hpar])]
    refine ⟨rfl, by simp [h2], ?_⟩
    rw [getD_set, if_pos ⟨rfl, h2⟩]
    exact (h.chain q hq).set (hmem q)
  · rw [if_neg (fun hh => hqp hh.1.symm),
      List.filter_cons_of_neg (by simp only [hpar, decide_eq_true_eq]; intro hh; exact hqp (Option.some.inj hh).symm)]
    exact (h.chain q hq).set (hmem q)

end Link

/-- The parent of `j`. -/
def parF (parent : List (Option Nat)) (j : Nat) : Option Nat := parent.getD j none

theorem linkInv_init (n : Nat) (par : Nat → Option Nat) :
    LinkInv n par [] ⟨List.replicate (n + 1) none, List.replicate n (some 0)⟩ := by
  refine ⟨by simp, by simp, fun p hp => ?_⟩
  dsimp only
  rw [getD_replicate _ _ _ _ (by omega)]
  rfl

theorem range'_shift {n t : Nat} (h : t < n) :
    List.range' (n - (t + 1)) (t + 1) = (n - 1 - t) :: List.range' (n - t) t := by
  rw [List.range'_succ]
  have h1 : n - (t + 1) = n - 1 - t := by omega
  have h2 : n - (t + 1) + 1 = n - t := by omega
  rw [h2, h1]

theorem linkPlain_wp {n : Nat} {parent : List (Option Nat)} (hlen : n ≤ parent.length)
    (hf : Forest n (parF parent)) {s : Links} (hs : LinkInv n (parF parent) [] s) :
    wp (linkPlain n parent s) (LinkInv n (parF parent) (List.range n)) := by
  unfold linkPlain
  refine forRange_wp' (fun t s => LinkInv n (parF parent) (List.range' (n - t) t) s) (by omega) hs ?_ ?_
  · intro t s _ ht hI
    have hj : n - 1 - t < n := by omega
    dsimp only
    rw [rd_getD none (show n - 1 - t < parent.length by omega)]
    simp only [ok_bind]
    rw [range'_shift ht]
    cases hp : parent.getD (n - 1 - t) none with
    | none => exact hI.skip hp
    | some p =>
      have hpn := hf _ p hj hp
      dsimp only
      rw [if_pos hpn.2]
      refine wp_mono (link_wp hI hpn.2 hj hp ?_) (fun _ h => h.1)
      rw [List.mem_range'_1]; omega
  · intro s hI
    rw [Nat.sub_self, ← List.range_eq_range'] at hI
    exact hI

/-! ## Linking by weight -/

theorem clamp_lt {n : Nat} (hn : 0 < n) (w : Int) : clamp n w < n := by
  unfold clamp; omega

/-- The nodes below `j` with a parent and the weight `w`. -/
def bucket (n : Nat) (par : Nat → Option Nat) (wt : Nat → Int) (j w : Nat) : List Nat :=
  (List.range j).filter (fun i => (par i).isSome ∧ clamp n (wt i) = w)

theorem mem_bucket {n : Nat} {par : Nat → Option Nat} {wt : Nat → Int} {j w i : Nat} :
    i ∈ bucket n par wt j w ↔ i < j ∧ (par i).isSome ∧ clamp n (wt i) = w := by
  simp [bucket]

theorem bucket_succ {n : Nat} {par : Nat → Option Nat} {wt : Nat → Int} {j w : Nat} :
    bucket n par wt (j + 1) w = if (par j).isSome ∧ clamp n (wt j) = w then bucket n par wt j w ++ [j]
      else bucket n par wt j w := by
  unfold bucket
  rw [List.range_succ, List.filter_append]
  split
  · next h => rw [List.filter_cons_of_pos (by simpa using h), List.filter_nil]
  · next h => rw [List.filter_cons_of_neg (by simpa using h), List.filter_nil, List.append_nil]

theorem fillBuckets_wp {n : Nat} {parent : List (Option Nat)} {weight : List Int}
    (hlen : n ≤ parent.length) (hw : n ≤ weight.length) (hf : Forest n (parF parent))
    {next : List (Option Nat)} (hn : next.length = n) :
    wp (fillBuckets n parent weight (List.replicate n none, next)) (fun s =>
      s.1.length = n ∧ s.2.length = n ∧ ∀ w, w < n → Chain s.2 (s.1.getD w none)
        (bucket n (parF parent) (fun i => weight.getD i 0) n w).reverse) := by
  unfold fillBuckets
  refine forRange_wp (fun j (s : List (Option Nat) × List (Option Nat)) => s.1.length = n ∧ s.2.length = n ∧ ∀ w, w < n → Chain s.2 (s.1.getD w none)
        (bucket n (parF parent) (fun i => weight.getD i 0) j w).reverse) (by omega) ?_ ?_
  · refine ⟨by simp, hn, fun w hw => ?_⟩
    dsimp only
    rw [getD_replicate _ _ _ _ hw]
    rfl
  · rintro j ⟨wh, nx⟩ _ hj ⟨h1, h2, h3⟩
    dsimp only at h1 h2 h3 ⊢
    rw [rd_getD none (show j < parent.length by omega)]
    simp only [ok_bind]
    cases hp : parent.getD j none with
    | none =>
      dsimp only
      rw [wp_ok]
      refine ⟨h1, h2, fun w hw => ?_⟩
      rw [bucket_succ, if_neg (by unfold parF; rw [hp]; simp)]
      exact h3 w hw
    | some p =>
      have hpn := hf _ p hj hp
      dsimp only
      rw [if_pos hpn.2]
      have hc := clamp_lt (n := n) (by omega) (weight.getD j 0)
      rw [rd_getD 0 (show j < weight.length by omega)]
      simp only [ok_bind]
      rw [rd_getD none (show clamp n (weight.getD j 0) < wh.length by omega)]
      simp only [ok_bind]
      rw [wr_eq (show j < nx.length by omega),
        wr_eq (show clamp n (weight.getD j 0) < wh.length by omega)]
      simp only [ok_bind, wp_ok]
      refine ⟨by simp [h1], by simp [h2], fun w hw => ?_⟩
      have hnm : ∀ w, j ∉ (bucket n (parF parent) (fun i => weight.getD i 0) j w).reverse := by
        intro w hm
        rw [List.mem_reverse, mem_bucket] at hm
        omega
      have hsome : (parF parent j).isSome = true := by unfold parF; rw [hp]; rfl
      rw [bucket_succ, getD_set]
      by_cases hwj : clamp n (weight.getD j 0) = w
      · rw [if_pos ⟨hwj, by omega⟩, if_pos ⟨hsome, hwj⟩, List.reverse_append]
        refine ⟨rfl, by simp only [List.length_set]; omega, ?_⟩
        rw [getD_set, if_pos ⟨rfl, by omega⟩]
        rw [hwj]
        exact (h3 w hw).set (hnm w)
      · rw [if_neg (fun hh => hwj hh.1), if_neg (fun hh => hwj hh.2)]
        exact (h3 w hw).set (hnm w)

theorem emptyBucket_wp {debug : Bool} {n : Nat} {parent : List (Option Nat)} (hlen : n ≤ parent.length)
    (hf : Forest n (parF parent)) : ∀ (l pre : List Nat) (fuel : Nat) (h : Option Nat) (s : Links),
    l.length ≤ fuel → (∀ j ∈ l, j < n ∧ (parF parent j).isSome) → (l.reverse ++ pre).Nodup →
    Chain s.next h l → LinkInv n (parF parent) pre s →
    wp (whileF fuel (fun (s : Option Nat × Links) => ok s.1.isSome) (fun s =>
      match s.1 with
      | none => ub
      | some j => do
        let nextj ← rd s.2.next j
        let p ← rd parent j
        match p with
        | none => if debug then exn else ub
        | some p =>
          if debug = true ∧ ¬ p < n then exn else do
          let s ← link p j s.2
          ok (nextj, s)) (h, s)) (fun r => LinkInv n (parF parent) (l.reverse ++ pre) r.2 ∧
        ∀ h' L, (∀ j ∈ l, j ∉ L) → Chain s.next h' L → Chain r.2.next h' L) := by
  intro l
  induction l with
  | nil =>
    intro pre fuel h s _ _ _ hc hI
    have : h = none := hc
    subst this
    cases fuel <;> simp only [whileF, ok_bind] <;> exact ⟨hI, fun _ _ _ h => h⟩
  | cons j l ih =>
    intro pre fuel h s hfuel hall hnd hc hI
    obtain ⟨hh, hj, hc⟩ := hc
    subst hh
    obtain ⟨fuel, rfl⟩ : ∃ f, fuel = f + 1 := ⟨fuel - 1, by simp only [List.length_cons] at hfuel; omega⟩
    have hjn := hall j List.mem_cons_self
    obtain ⟨p, hp⟩ := Option.isSome_iff_exists.1 hjn.2
    have hpn := hf j p hjn.1 hp
    simp only [whileF, ok_bind, Option.isSome_some, if_true]
    rw [rd_getD none hj, rd_getD none (show j < parent.length by omega)]
    simp only [ok_bind]
    rw [show parent.getD j none = some p from hp]
    dsimp only
    rw [if_neg (fun hh => hh.2 hpn.2)]
    simp only [wp_bind]
    rw [List.reverse_cons, List.append_assoc, List.singleton_append] at hnd
    have hnd2 := (List.nodup_append.1 hnd)
    have hjpre : j ∉ pre := (List.nodup_cons.1 hnd2.2.1).1
    have hjl : j ∉ l := fun hm => hnd2.2.2 j (List.mem_reverse.2 hm) j List.mem_cons_self rfl
    refine wp_mono (link_wp hI hpn.2 hjn.1 hp hjpre) ?_
    intro s' hs'
    rw [wp_ok]
    refine wp_mono (ih (j :: pre) fuel _ s' (by simp only [List.length_cons] at hfuel; omega)
      (fun i hi => hall i (List.mem_cons_of_mem _ hi)) hnd (hs'.2 _ _ hjl hc) hs'.1) ?_
    intro r hr
    refine ⟨by simpa using hr.1, ?_⟩
    intro h' L hL hcL
    exact hr.2 h' L (fun i hi => hL i (List.mem_cons_of_mem _ hi))
      (hs'.2 h' L (hL j List.mem_cons_self) hcL)

/-- The nodes with a parent, sorted by weight. -/
def weighted (n : Nat) (par : Nat → Option Nat) (wt : Nat → Int) : List Nat :=
  (List.range n).flatMap (bucket n par wt n)

theorem nodup_buckets {n : Nat} {par : Nat → Option Nat} {wt : Nat → Int} {l : List Nat} (hl : l.Nodup) :
    (l.flatMap (bucket n par wt n)).Nodup := by
  apply nodup_flatMap_of hl
  · intro a _; exact List.Nodup.filter _ List.nodup_range
  · intro a _ b _ x hxa hxb
    exact (mem_bucket.1 hxa).2.2.symm.trans (mem_bucket.1 hxb).2.2

theorem linkWeighted_wp {debug : Bool} {n : Nat} {parent : List (Option Nat)} {weight : List Int}
    (hlen : n ≤ parent.length) (hw : n ≤ weight.length) (hf : Forest n (parF parent))
    {s : Links} (hs : LinkInv n (parF parent) [] s) :
    wp (linkWeighted debug n parent weight s) (LinkInv n (parF parent)
      (weighted n (parF parent) (fun i => weight.getD i 0))) := by
  unfold linkWeighted
  simp only [wp_bind]
  refine wp_mono (fillBuckets_wp hlen hw hf hs.nlen) ?_
  rintro ⟨wh, nx⟩ ⟨h1, h2, h3⟩
  dsimp only at h1 h2 h3 ⊢
  set B := bucket n (parF parent) (fun i => weight.getD i 0) n with hB
  refine forRange_wp' (fun t s => LinkInv n (parF parent) ((List.range' (n - t) t).flatMap B) s ∧
    ∀ w, w < n - t → Chain s.next (wh.getD w none) (B w).reverse) (by omega) ?_ ?_ ?_
  · refine ⟨⟨hs.hlen, h2, fun p hp => ?_⟩, fun w hw => h3 w (by omega)⟩
    have := hs.chain p hp
    exact this
  · intro t s _ ht ⟨hI, hC⟩
    rw [rd_getD none (show n - 1 - t < wh.length by omega)]
    simp only [ok_bind]
    unfold emptyBucket
    simp only [wp_bind, wp_ok]
    have hdis : ((B (n - 1 - t)).reverse.reverse ++ (List.range' (n - t) t).flatMap B).Nodup := by
      rw [List.reverse_reverse]
      have := nodup_buckets (n := n) (par := parF parent) (wt := fun i => weight.getD i 0)
        (l := List.range' (n - (t + 1)) (t + 1)) List.nodup_range'
      rw [range'_shift ht, List.flatMap_cons] at this
      exact this
    have hall : ∀ j ∈ (B (n - 1 - t)).reverse, j < n ∧ (parF parent j).isSome := by
      intro j hj
      rw [List.mem_reverse, hB, mem_bucket] at hj
      exact ⟨hj.1, hj.2.1⟩
    have hle : (B (n - 1 - t)).reverse.length ≤ n := by
      rw [List.length_reverse, hB]
      unfold bucket
      exact le_trans (List.length_filter_le _ _) (by simp)
    refine wp_mono (emptyBucket_wp hlen hf _ _ n _ s hle hall hdis (hC _ (by omega)) hI) ?_
    intro r hr
    rw [List.reverse_reverse] at hr
    refine ⟨?_, ?_⟩
    · rw [range'_shift ht, List.flatMap_cons]
      exact hr.1
    · intro w hw
      refine hr.2 _ _ ?_ (hC w (by omega))
      intro j hj hj'
      rw [List.mem_reverse, hB, mem_bucket] at hj hj'
      have := hj.2.2.symm.trans hj'.2.2
      omega
  · intro s hI
    rw [Nat.sub_self, ← List.range_eq_range'] at hI
    exact hI.1

/-! ## The depth first search -/

/-- The nodes that are still to be listed, if `rem p` are the remaining children of `p`. -/
def restOf (P rem : Nat → List Nat) : List Nat → List Nat
  | [] => []
  | p :: st => (rem p).flatMap P ++ p :: restOf P rem st

theorem mem_restOf {P rem : Nat → List Nat} {st : List Nat} {p : Nat} (h : p ∈ st) :
    p ∈ restOf P rem st := by
  induction st with
  | nil => cases h
  | cons a st ih =>
    rcases List.mem_cons.1 h with rfl | h
    · simp [restOf]
    · simp only [restOf, List.mem_append, List.mem_cons]
      exact .inr (.inr (ih h))

theorem length_restOf {P rem : Nat → List Nat} (st : List Nat) : st.length ≤ (restOf P rem st).length := by
  induction st with
  | nil => simp
  | cons a st ih => simp only [restOf, List.length_append, List.length_cons]; omega

theorem restOf_congr {P rem rem' : Nat → List Nat} {st : List Nat} (h : ∀ p ∈ st, rem p = rem' p) :
    restOf P rem st = restOf P rem' st := by
  induction st with
  | nil => rfl
  | cons a st ih =>
    simp only [restOf]
    rw [h a List.mem_cons_self, ih (fun p hp => h p (List.mem_cons_of_mem _ hp))]

structure DInv (n L : Nat) (next : List (Option Nat)) (kids rem : Nat → List Nat) (total : List Nat)
    (s : Dfs) : Prop where
  hlen : s.head.length = n + 1
  plen : s.post.length = L
  kle : s.k ≤ L
  chain : ∀ p, p < n → Chain next (s.head.getD p none) (rem p)
  fresh : ∀ p, p < n → p ∉ s.post.take s.k → p ∉ s.stack → rem p = kids p
  total : s.post.take s.k ++ restOf (postOf kids) rem s.stack = total

theorem dfsStep_wp {n L : Nat} {par : Nat → Option Nat} {kids rem : Nat → List Nat} (hk : Kids n par kids)
    {next : List (Option Nat)} (hnext : next.length = n) {total : List Nat} (hnd : total.Nodup)
    (hlt : ∀ x ∈ total, x < n) (hL : total.length ≤ L) (hLn : total.length ≤ n) {s : Dfs}
    (hI : DInv n L next kids rem total s) (hne : s.stack ≠ []) :
    wp (dfsStep n next s) (fun s' => (∃ rem, DInv n L next kids rem total s') ∧
      2 * (total.length - s'.k) - s'.stack.length < 2 * (total.length - s.k) - s.stack.length) := by
  obtain ⟨stack, head, post, k⟩ := s
  obtain ⟨hlen, plen, kle, chain, fresh, htot⟩ := hI
  dsimp only at *
  cases stack with
  | nil => exact absurd rfl hne
  | cons p st =>
    have htl : (post.take k).length = k := by rw [List.length_take]; omega
    have hlenT : k + (restOf (postOf kids) rem (p :: st)).length = total.length := by
      rw [← htot, List.length_append, htl]
    have hpT : p ∈ total := by
      rw [← htot]
      exact List.mem_append_right _ (mem_restOf List.mem_cons_self)
    have hpn := hlt p hpT
    have hst := length_restOf (P := postOf kids) (rem := rem) st
    unfold dfsStep
    dsimp only
    rw [rd_getD none (show p < head.length by omega)]
    simp only [ok_bind]
    have hc := chain p hpn
    cases hr : rem p with
    | nil =>
      rw [hr] at hc
      have hc : head.getD p none = none := hc
      rw [hc]
      have hlen1 : k + 1 + (restOf (postOf kids) rem st).length = total.length := by
        rw [← hlenT]; simp only [restOf, hr, List.flatMap_nil, List.nil_append, List.length_cons]; omega
      dsimp only
      rw [wr_eq (show k < post.length by omega)]
      simp only [ok_bind, wp_ok]
      have htake : (post.set k p).take (k + 1) = post.take k ++ [p] := by
        rw [List.take_add_one, List.take_set_of_le (le_refl _), List.getElem?_set_self (by omega)]
        rfl
      refine ⟨⟨rem, hlen, by simp [plen], by dsimp only; omega, chain, ?_, ?_⟩, ?_⟩
      · intro q hq h1 h2
        dsimp only at h1 h2
        rw [htake, List.mem_append, List.mem_singleton, not_or] at h1
        exact fresh q hq h1.1 (by rw [List.mem_cons, not_or]; exact ⟨h1.2, h2⟩)
      · dsimp only
        rw [htake, ← htot]
        simp [restOf, hr]
      · simp only [List.length_cons]; omega
    | cons j r =>
      rw [hr] at hc
      obtain ⟨hc1, hj, hc2⟩ := hc
      rw [hc1]
      dsimp only
      rw [rd_getD none hj]
      simp only [ok_bind]
      rw [wr_eq (show p < head.length by omega)]
      simp only [ok_bind]
      have hrest : restOf (postOf kids) rem (p :: st) =
          postOf kids j ++ (r.flatMap (postOf kids) ++ p :: restOf (postOf kids) rem st) := by
        simp [restOf, hr]
      have hjP : j ∈ postOf kids j := (mem_postOf hk j j).2 .refl
      rw [hrest] at htot hlenT
      have hnd1 := hnd
      rw [← htot] at hnd1
      have hA := List.nodup_append.1 hnd1
      have hB := List.nodup_append.1 hA.2.1
      have hC := List.nodup_append.1 hB.2.1
      have hj1 : j ∉ post.take k := fun hm => hA.2.2 j hm j (List.mem_append_left _ hjP) rfl
      have hjp : j ≠ p := fun hm => hB.2.2 j hjP p
        (List.mem_append_right _ List.mem_cons_self) hm
      have hjst : j ∉ st := fun hm => hB.2.2 j hjP j
        (List.mem_append_right _ (List.mem_cons_of_mem _ (mem_restOf hm))) rfl
      have hpst : p ∉ st := fun hm => (List.nodup_cons.1 hC.2.1).1 (mem_restOf hm)
      have hjk : rem j = kids j := by
        refine fresh j (by omega) hj1 ?_
        rw [List.mem_cons, not_or]
        exact ⟨hjp, hjst⟩
      have hPlen : 0 < (postOf kids j).length := List.length_pos_of_mem hjP
      rw [if_neg]
      · rw [wp_ok]
        refine ⟨⟨fun q => if q = p then r else rem q, by simp [hlen], plen, kle, ?_, ?_, ?_⟩, ?_⟩
        · intro q hq
          dsimp only
          rw [getD_set]
          by_cases hqp : q = p
          · subst hqp
            rw [if_pos ⟨rfl, by omega⟩, if_pos rfl]
            exact hc2
          · rw [if_neg (fun hh => hqp hh.1.symm), if_neg hqp]
            exact chain q hq
        · intro q hq h1 h2
          dsimp only at h1 h2 ⊢
          simp only [List.mem_cons, not_or] at h2
          rw [if_neg h2.2.1]
          exact fresh q hq h1 (by simp [h2.2])
        · dsimp only
          rw [← htot]
          congr 1
          have e : restOf (postOf kids) (fun q => if q = p then r else rem q) st =
              restOf (postOf kids) rem st := by
            apply restOf_congr
            intro q hq
            rw [if_neg]
            rintro rfl
            exact hpst hq
          simp only [restOf]
          rw [if_neg hjp, if_true, e, hjk, postOf_eq hk j]
          simp
        · simp only [List.length_cons]
          simp only [List.length_append, List.length_cons] at hlenT
          omega
      · simp only [List.length_cons]
        simp only [List.length_append, List.length_cons] at hlenT
        omega

theorem dfsTree_wp {n L : Nat} {par : Nat → Option Nat} {kids : Nat → List Nat} (hk : Kids n par kids)
    {next : List (Option Nat)} (hnext : next.length = n) {out : List Nat} {p : Nat} (hp : p < n)
    (hnd : (out ++ postOf kids p).Nodup) (hlt : ∀ x ∈ out ++ postOf kids p, x < n) (hL : n ≤ L) {s : Dfs}
    {rem : Nat → List Nat} (hI : DInv n L next kids rem out s) (hst : s.stack = []) :
    wp (dfsTree n p next s) (fun s' => ∃ rem, DInv n L next kids rem (out ++ postOf kids p) s' ∧
      s'.stack = []) := by
  have hle : (out ++ postOf kids p).length ≤ n := by
    have := List.subperm_of_subset hnd (fun x hx => List.mem_range.2 (hlt x hx))
    simpa using this.length_le
  unfold dfsTree
  rw [if_neg (by omega)]
  refine whileF_wp (fun s => ∃ rem, DInv n L next kids rem (out ++ postOf kids p) s)
    (fun s => 2 * ((out ++ postOf kids p).length - s.k) - s.stack.length) ?_ (2 * n) _ ?_ ?_
  · rintro s ⟨rem, hI⟩
    rw [wp_ok]
    cases hs : s.stack with
    | nil => simp only [List.isEmpty_nil, Bool.not_true, Bool.false_eq_true, if_false]; exact ⟨rem, hI, trivial⟩
    | cons a l =>
      simp only [List.isEmpty_cons, Bool.not_false, if_true]
      have := dfsStep_wp hk hnext hnd hlt (by omega) hle hI (by rw [hs]; simp)
      rw [hs] at this
      obtain ⟨s', h1, h2⟩ := wp_iff.1 this
      exact ⟨by omega, this⟩
  · dsimp only
    omega
  · refine ⟨rem, hI.hlen, hI.plen, hI.kle, hI.chain, ?_, ?_⟩
    · intro q hq h1 _
      exact hI.fresh q hq h1 (by rw [hst]; simp)
    · have htot := hI.total
      rw [hst] at htot
      simp only [restOf, List.append_nil] at htot
      dsimp only
      have hpo : p ∉ s.post.take s.k := by
        rw [htot]
        exact fun hm => (List.nodup_append.1 hnd).2.2 p hm p ((mem_postOf hk p p).2 .refl) rfl
      have := hI.fresh p hp hpo (by rw [hst]; simp)
      rw [htot, postOf_eq hk]
      simp only [restOf, this]

theorem treePostOrder_wp {debug : Bool} {n L : Nat} (hn : 0 < n) {parent : List (Option Nat)}
    (hlen : n ≤ parent.length) {weight : Option (List Int)} {post : List Nat} (hpost : post.length = L)
    (hL : n ≤ L) {ord : List Nat} (hk : Kids n (parF parent) (fun p => ord.filter (fun j => parF parent j = some p)))
    (hlink : wp ((match weight with
      | none => linkPlain n parent ⟨List.replicate (n + 1) none, List.replicate n (some 0)⟩
      | some w => linkWeighted debug n parent w ⟨List.replicate (n + 1) none, List.replicate n (some 0)⟩))
      (LinkInv n (parF parent) ord)) :
    wp (treePostOrder debug n parent weight post) (fun r => r.1 = n ∧ r.2.length = L ∧
      r.2.take n = (rootsOf n (parF parent)).flatMap
        (postOf (fun p => ord.filter (fun j => parF parent j = some p)))) := by
  set kids := (fun p => ord.filter (fun j => parF parent j = some p)) with hkids
  unfold treePostOrder
  rw [if_neg (by omega)]
  simp only [wp_bind]
  refine wp_mono hlink ?_
  intro s hs
  have hnd := nodup_roots hk n
  have hpo := isPostOrder hk (before := fun _ _ => False) (fun _ _ _ _ _ h => h.elim)
  have hlt : ∀ x ∈ (rootsOf n (parF parent)).flatMap (postOf kids), x < n :=
    fun x hx => List.mem_range.1 (hpo.perm.mem_iff.1 hx)
  have hroots : ∀ m, m < n → rootsOf (m + 1) (parF parent) = rootsOf m (parF parent) ++
      if parF parent m = none then [m] else [] := by
    intro m _
    unfold rootsOf
    rw [List.range_succ, List.filter_append]
    congr 1
    split
    · next h => rw [List.filter_cons_of_pos (by simpa using h), List.filter_nil]
    · next h => rw [List.filter_cons_of_neg (by simpa using h), List.filter_nil]
  have hpre : ∀ m, m ≤ n → (rootsOf m (parF parent)).flatMap (postOf kids) <+:
      (rootsOf n (parF parent)).flatMap (postOf kids) := by
    intro m hm
    obtain ⟨d, rfl⟩ := Nat.exists_eq_add_of_le hm
    unfold rootsOf
    rw [List.range_add, List.filter_append, List.flatMap_append]
    exact List.prefix_append _ _
  refine forRange_wp' (fun m (r : Dfs) => ∃ rem, DInv n L s.next kids rem
      ((rootsOf m (parF parent)).flatMap (postOf kids)) r ∧ r.stack = []) (by omega) ?_ ?_ ?_
  · exact ⟨kids, ⟨hs.hlen, hpost, by simp, hs.chain, fun _ _ _ _ => rfl, by simp [rootsOf, restOf]⟩, rfl⟩
  · rintro m r _ hm ⟨rem, hI, hst⟩
    rw [rd_getD none (show m < parent.length by omega)]
    simp only [ok_bind]
    rw [hroots m hm, List.flatMap_append]
    unfold parF at *
    by_cases hp : parent.getD m none = none
    · rw [if_pos hp, if_pos hp]
      have hpm := hpre (m + 1) (by omega)
      rw [hroots m hm, List.flatMap_append, if_pos hp] at hpm
      simp only [List.flatMap_cons, List.flatMap_nil, List.append_nil] at hpm ⊢
      exact dfsTree_wp hk hs.nlen hm (hpm.sublist.nodup hnd) (fun x hx => hlt x (hpm.subset hx)) hL hI hst
    · rw [if_neg hp, if_neg hp, wp_ok]
      simp only [List.flatMap_nil, List.append_nil]
      exact ⟨rem, hI, hst⟩
  · rintro r ⟨rem, hI, hst⟩
    rw [wp_ok]
    have htot := hI.total
    rw [hst] at htot
    simp only [restOf, List.append_nil] at htot
    have hkn : r.k = n := by
      have h1 := congrArg List.length htot
      rw [hpo.perm.length_eq, List.length_range, List.length_take, hI.plen] at h1
      have := hI.kle
      omega
    refine ⟨hkn, hI.plen, ?_⟩
    rw [hkn] at htot
    exact htot

theorem kids_range {n : Nat} {par : Nat → Option Nat} (hf : Forest n par) :
    Kids n par (fun p => (List.range n).filter (fun j => par j = some p)) :=
  ⟨hf, fun p c => by simp [ChildOf], fun _ => List.Nodup.filter _ List.nodup_range⟩

theorem mem_weighted {n : Nat} {par : Nat → Option Nat} {wt : Nat → Int} {j : Nat} :
    j ∈ weighted n par wt ↔ j < n ∧ (par j).isSome := by
  unfold weighted
  rw [List.mem_flatMap]
  constructor
  · rintro ⟨w, _, h⟩
    exact ⟨(mem_bucket.1 h).1, (mem_bucket.1 h).2.1⟩
  · rintro ⟨h1, h2⟩
    exact ⟨clamp n (wt j), List.mem_range.2 (clamp_lt (by omega) _), mem_bucket.2 ⟨h1, h2, rfl⟩⟩

theorem kids_weighted {n : Nat} {par : Nat → Option Nat} {wt : Nat → Int} (hf : Forest n par) :
    Kids n par (fun p => (weighted n par wt).filter (fun j => par j = some p)) := by
  refine ⟨hf, fun p c => ?_, fun _ => List.Nodup.filter _ (nodup_buckets List.nodup_range)⟩
  simp only [List.mem_filter, mem_weighted, decide_eq_true_eq, ChildOf]
  constructor
  · rintro ⟨h, hp⟩; exact ⟨h.1, hp⟩
  · rintro ⟨h, hp⟩; exact ⟨⟨h, by rw [hp]; rfl⟩, hp⟩

theorem pairwise_weighted {n : Nat} {par : Nat → Option Nat} {wt : Nat → Int} :
    (weighted n par wt).Pairwise (fun c d => clamp n (wt c) < clamp n (wt d) ∨
      clamp n (wt c) = clamp n (wt d) ∧ c < d) := by
  unfold weighted
  rw [List.pairwise_flatMap]
  constructor
  · intro w _
    refine List.Pairwise.imp_of_mem ?_ (List.Pairwise.filter _ List.pairwise_lt_range)
    intro a b ha hb hab
    exact .inr ⟨(mem_bucket.1 ha).2.2.trans (mem_bucket.1 hb).2.2.symm, hab⟩
  · refine List.Pairwise.imp ?_ List.pairwise_lt_range
    intro w w' hww x hx y hy
    rw [(mem_bucket.1 hx).2.2, (mem_bucket.1 hy).2.2]
    exact .inl hww

end Verif.TreePost
