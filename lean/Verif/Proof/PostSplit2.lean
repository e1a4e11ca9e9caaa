import Verif.Proof.PostSplit
import Verif.Spec.TreeSplit
import Mathlib.Data.List.Perm.Subperm

/-! # Splitting a forest into its trees: the loops -/

namespace Verif.Split
open Res Verif.Tree

set_option linter.unusedSectionVars false

variable {n : Nat} {t : List Int} {K : Type} [Add K]

theorem countP_remove {l A : List Nat} {k : Nat} (hl : l.Nodup) (hk : k ∉ A) :
    l.countP (fun c => decide (c ∉ A ++ [k])) + (if k ∈ l then 1 else 0)
      = l.countP (fun c => decide (c ∉ A)) := by
  induction l with
  | nil => simp
  | cons a l ih =>
    have hnd := List.nodup_cons.1 hl
    have := ih hnd.2
    rw [List.countP_cons, List.countP_cons, ← this]
    by_cases hak : a = k
    · subst hak
      rw [if_neg hnd.1, if_pos (List.mem_cons_self), if_neg (by simp), if_pos (by simpa using hk)]
    · have e1 : (k ∈ a :: l) ↔ k ∈ l := by
        rw [List.mem_cons]; exact ⟨fun h => h.resolve_left (fun e => hak e.symm), .inr⟩
      have e2 : (decide (a ∉ A ++ [k]) = true) ↔ (decide (a ∉ A) = true) := by
        simp only [decide_eq_true_eq, List.mem_append, List.mem_singleton, not_or]
        exact ⟨fun h => h.1, fun h => ⟨h, hak⟩⟩
      simp only [e1, e2]
      omega

/-- The counters of the children that are not visited. -/
structure CntOk (n : Nat) (t : List Int) (A : List Nat) (nChild : List Int) : Prop where
  len : nChild.length = n
  cnt : ∀ v, v < n → nChild.getD v 0 = ((kids n t v).countP (fun c => decide (c ∉ A)) : Nat)

theorem kids_nodup' (p : Nat) : (kids n t p).Nodup := List.nodup_range.filter _

theorem CntOk.zero {A : List Nat} {nChild : List Int} (h : CntOk n t A nChild) {v : Nat} (hv : v < n) :
    nChild.getD v 0 = 0 ↔ ∀ c, ChildOf n (parentOf t) c v → c ∈ A := by
  rw [h.cnt v hv]
  have : ((((kids n t v).countP (fun c => decide (c ∉ A)) : Nat) : Int) = 0) ↔
      (kids n t v).countP (fun c => decide (c ∉ A)) = 0 := by omega
  rw [this, List.countP_eq_zero]
  simp only [mem_kids, decide_eq_true_eq, not_not]

theorem CntOk.dec {A : List Nat} {nChild : List Int} (h : CntOk n t A nChild) {k p : Nat} (hk : k < n)
    (hkA : k ∉ A) (hp : parentOf t k = some p) :
    CntOk n t (A ++ [k]) (nChild.set p (nChild.getD p 0 - 1)) := by
  have hl := h.len
  refine ⟨by simpa using hl, fun v hv => ?_⟩
  have hc := countP_remove (kids_nodup' (n := n) (t := t) v) hkA
  rw [getD_set]
  by_cases hvp : v = p
  · subst hvp
    rw [if_pos ⟨rfl, by omega⟩, h.cnt v hv]
    rw [if_pos (mem_kids.2 ⟨hk, hp⟩)] at hc
    omega
  · rw [if_neg (by omega), h.cnt v hv]
    rw [if_neg (by
      rw [mem_kids]
      rintro ⟨_, h⟩
      rw [hp] at h
      exact hvp (by simpa using h.symm))] at hc
    omega

theorem CntOk.root {A : List Nat} {nChild : List Int} (h : CntOk n t A nChild) {k : Nat}
    (hkA : k ∉ A) (hp : parentOf t k = none) : CntOk n t (A ++ [k]) nChild := by
  refine ⟨h.len, fun v hv => ?_⟩
  have hc := countP_remove (kids_nodup' (n := n) (t := t) v) hkA
  rw [if_neg (by rw [mem_kids]; rintro ⟨_, h⟩; rw [hp] at h; cases h)] at hc
  rw [h.cnt v hv]
  omega

/-- The arrays: `done` are the finished parts, `P` is the current one. -/
structure Base (n : Nat) (t : List Int) (wc oc : Nat → K) (done : List (List Nat)) (P : List Nat) (s : Pos K) : Prop where
  vlen : s.visited.length = n
  mlen : s.mark.length = n
  olen : s.outCost.length = n
  parts : s.parts = done ++ [P]
  cur : s.cur = done.length
  vis : ∀ x, s.visited.getD x false = true ↔ x ∈ done.flatten ++ P
  nodup : (done.flatten ++ P).Nodup
  mem : ∀ x ∈ done.flatten ++ P, Inside n t x
  trees : ∀ q ∈ done, IsTree (parentOf t) q
  cost : ∀ i, i < n → s.outCost[i]? = some (((done ++ [P]).getD i []).foldl (fun a x => a + wc x) (oc i))

theorem length_le_flatten {done : List (List Nat)} (h : ∀ q ∈ done, q ≠ []) :
    done.length ≤ done.flatten.length := by
  induction done with
  | nil => simp
  | cons q l ih =>
    have := ih (fun q hq => h q (by simp [hq]))
    have : 0 < q.length := List.length_pos_iff.2 (h q (by simp))
    simp only [List.length_cons, List.flatten_cons, List.length_append]
    omega

theorem _root_.Verif.IsTree.ne_nil {q : List Nat} (h : IsTree (parentOf t) q) : q ≠ [] := by
  obtain ⟨q', r, rfl, _⟩ := h
  simp

theorem length_le_of_nodup {l : List Nat} (hn : l.Nodup) (h : ∀ x ∈ l, x < n) : l.length ≤ n := by
  have := (List.subperm_of_subset hn (fun x hx => List.mem_range.2 (h x hx))).length_le
  simpa using this

variable {done : List (List Nat)} {P : List Nat} {s : Pos K} {wc oc : Nat → K}

theorem Base.room (h : Base n t wc oc done P s) {k : Nat} (hk : k < n) (hkA : k ∉ done.flatten ++ P) :
    (done.flatten ++ P).length < n ∧ done.length < n := by
  have h1 := length_le_of_nodup (n := n) (l := k :: (done.flatten ++ P)) (List.nodup_cons.2 ⟨hkA, h.nodup⟩)
    (by
      intro x hx
      rcases List.mem_cons.1 hx with rfl | hx
      · exact hk
      · exact (h.mem x hx).1)
  have h2 := length_le_flatten (fun q hq => (h.trees q hq).ne_nil)
  simp only [List.length_cons, List.length_append] at h1 ⊢
  omega

theorem addNode_wp {inCost : List K} (hin : inCost = (List.range n).map wc) (h : Base n t wc oc done P s) {k : Nat}
    (hk : Inside n t k) (hkA : k ∉ done.flatten ++ P) :
    wp (addNode inCost k s) (fun s' => Base n t wc oc done (P ++ [k]) s' ∧ s'.stack = s.stack ∧ s'.mark = s.mark ∧
      s'.nChild = s.nChild) := by
  have hroom := h.room hk.1 hkA
  have h1 := h.vlen
  have h2 := h.olen
  have h3 := hk.1
  have h4 : inCost.length = n := by rw [hin]; simp
  unfold addNode
  have hp : rd s.parts s.cur = ok P := by
    rw [h.parts, h.cur, rd_eq (by simp)]
    simp
  have hw : wr s.parts s.cur (P ++ [k]) = ok (done ++ [P ++ [k]]) := by
    rw [h.parts, h.cur, wr_eq (by simp)]
    simp
  have hcur := h.cur
  rw [hp, ok_bind, hw, ok_bind]
  obtain ⟨o, ho⟩ : ∃ o, rd s.outCost s.cur = ok o := ⟨_, rd_eq (by omega)⟩
  have hc : rd inCost k = ok (wc k) := by
    rw [rd_eq (by omega)]
    simp [hin]
  rw [ho, ok_bind, hc, ok_bind, wr_eq (by omega), ok_bind, wr_eq (by omega), ok_bind, wp_ok]
  refine ⟨⟨by simpa using h1, h.mlen, by simpa using h2, rfl, h.cur, ?_, ?_, ?_, h.trees, ?_⟩, rfl, rfl, rfl⟩
  · intro x
    dsimp only
    rw [getD_set, ← List.append_assoc, List.mem_append (s := done.flatten ++ P), ← h.vis x,
      List.mem_singleton]
    by_cases hx : x = k
    · rw [if_pos ⟨hx.symm, by omega⟩]
      simp [hx]
    · rw [if_neg (by omega)]
      simp [hx]
  · rw [← List.append_assoc, List.nodup_append]
    refine ⟨h.nodup, by simp, ?_⟩
    intro a ha c hc
    obtain rfl : c = k := by simpa using hc
    rintro rfl
    exact hkA ha
  · intro x hx
    rw [← List.append_assoc, List.mem_append, List.mem_singleton] at hx
    rcases hx with hx | rfl
    · exact h.mem x hx
    · exact hk
  · intro i hi
    dsimp only
    have hold := h.cost i hi
    rw [List.getElem?_set]
    by_cases hic : s.cur = i
    · rw [if_pos hic, if_pos (by omega)]
      subst hic
      have ho' : s.outCost[s.cur]? = some o := by
        unfold rd at ho
        split at ho
        · rename_i x hx; cases ho; exact hx
        · cases ho
      rw [hold, Option.some.injEq] at ho'
      rw [hcur] at *
      simp only [List.getD_eq_getElem?_getD, List.getElem?_append_right (Nat.le_refl _), Nat.sub_self,
        List.getElem?_cons_zero, Option.getD_some] at ho' ⊢
      rw [List.foldl_append, ho']
      rfl
    · rw [if_neg hic, hold]
      have : (done ++ [P ++ [k]]).getD i [] = (done ++ [P]).getD i [] := by
        simp only [List.getD_eq_getElem?_getD]
        rcases Nat.lt_or_ge i done.length with hlt | hge
        · rw [List.getElem?_append_left hlt, List.getElem?_append_left hlt]
        · rw [List.getElem?_eq_none (by simp; omega), List.getElem?_eq_none (by simp; omega)]
      rw [this]

/-- The state of the inner loop. -/
structure Loop (n : Nat) (t : List Int) (wc oc : Nat → K) (done : List (List Nat)) (P : List Nat) (s : Pos K) (b : Nat) :
    Prop where
  base : Base n t wc oc done P s
  cnt : CntOk n t (done.flatten ++ P) s.nChild
  stk : StackInv n t (fun x => x ∈ done.flatten ++ P) (fun x => s.mark.getD x false = true) s.stack b
  open' : ∀ x ∈ P, ∃ p, parentOf t x = some p ∧ (p ∈ s.stack ∨ [x, p].Sublist P)

/-- The number of rounds that may still come. -/
def rounds (n : Nat) (s : Pos K) : Nat := 2 * (n - s.parts.flatten.length) - s.stack.length

theorem Loop.room {b : Nat} (h : Loop n t wc oc done P s b) :
    (done.flatten ++ P).length + s.stack.length ≤ n ∧ s.parts.flatten = done.flatten ++ P := by
  have he : s.parts.flatten = done.flatten ++ P := by
    rw [h.base.parts]; simp
  refine ⟨?_, he⟩
  have := length_le_of_nodup (n := n) (l := (done.flatten ++ P) ++ s.stack) (by
      rw [List.nodup_append]
      refine ⟨h.base.nodup, h.stk.nodup, ?_⟩
      intro x hx y hy
      rintro rfl
      exact (h.stk.unv x hy).2 hx) (by
      intro x hx
      rcases List.mem_append.1 hx with hx | hx
      · exact (h.base.mem x hx).1
      · exact (h.stk.unv x hx).1.1)
  simp only [List.length_append] at this ⊢
  omega

theorem post_mono {σ ρ : Type} {I I' : σ → Prop} {R R' : ρ → Prop} {c : Ctl σ ρ} (h1 : ∀ s, I s → I' s)
    (h2 : ∀ r, R r → R' r) (h : Ctl.post I R c) : Ctl.post I' R' c := by
  cases c with
  | next s => exact h1 s h
  | brk r => exact h2 r h

/-- No node is lost. -/
def Keep (s s' : Pos K) : Prop :=
  ∀ x, x ∈ s.parts.flatten ∨ x ∈ s.stack → x ∈ s'.parts.flatten ∨ x ∈ s'.stack

/-- A tree is finished. -/
structure Finished (n : Nat) (t : List Int) (wc oc : Nat → K) (done : List (List Nat)) (P : List Nat) (s : Pos K) : Prop where
  base : Base n t wc oc done P s
  cnt : CntOk n t (done.flatten ++ P) s.nChild
  stack : s.stack = []
  mark : ∀ x, s.mark.getD x false = true → x ∈ done.flatten ++ P
  down : ∀ c p, ChildOf n (parentOf t) c p → p ∈ done.flatten ++ P → c ∈ done.flatten ++ P
  tree : IsTree (parentOf t) P

theorem decChild_eq {p : Nat} (hp : p < s.nChild.length) :
    decChild p s = ok { s with nChild := s.nChild.set p (s.nChild.getD p 0 - 1) } := by
  unfold decChild
  rw [rd_getD 0 hp, ok_bind, wr_eq hp, ok_bind]

theorem popNode_wp (hl : t.length = n) (hf : Forest n (parentOf t)) (hcl : Closed n t) {inCost : List K}
    (hin : inCost = (List.range n).map wc) {b k : Nat} {S : List Nat} (h : Loop n t wc oc done P s b) (hs : s.stack = k :: S)
    (hz : s.nChild.getD k 0 = 0) :
    wp (popNode t inCost k s) (Ctl.post (fun s' => (∃ b', Loop n t wc oc done (P ++ [k]) s' b') ∧
      rounds n s' < rounds n s ∧ Keep s s') (fun s' => Finished n t wc oc done (P ++ [k]) s' ∧ Keep s s')) := by
  have hst := h.stk
  rw [hs] at hst
  have hku := hst.unv k (by simp)
  have hkn := hku.1.1
  have hkids := (h.cnt.zero hkn).1 hz
  have hroom := h.room
  have hbase : Base n t wc oc done P { s with stack := s.stack.tail } :=
    ⟨h.base.vlen, h.base.mlen, h.base.olen, h.base.parts, h.base.cur, h.base.vis, h.base.nodup, h.base.mem,
      h.base.trees, h.base.cost⟩
  unfold popNode
  rw [wp_bind]
  refine wp_mono (addNode_wp hin hbase hku.1 hku.2) ?_
  rintro s1 ⟨b1, b2, b3, b4⟩
  dsimp only at b2 b3 b4
  rw [hs, List.tail_cons] at b2
  have hfl : s1.parts.flatten = done.flatten ++ (P ++ [k]) := by rw [b1.parts]; simp
  have hrl : s1.parts.flatten.length = s.parts.flatten.length + 1 := by
    rw [hfl, hroom.2]; simp; omega
  have hsl : s.stack.length = S.length + 1 := by rw [hs]; simp
  have hA : ∀ x, (x ∈ done.flatten ++ P ∨ x = k) ↔ x ∈ done.flatten ++ (P ++ [k]) := by
    intro x
    rw [← List.append_assoc, List.mem_append (s := done.flatten ++ P), List.mem_singleton]
  have hkeep : ∀ s2 : Pos K, s2.parts = s1.parts → (∀ x ∈ S, x ∈ s2.stack) → Keep s s2 := by
    intro s2 e1 e2 x hx
    rw [e1, hfl]
    rw [hroom.2, hs, List.mem_cons] at hx
    rcases hx with hx | rfl | hx
    · exact .inl ((hA x).1 (.inl hx))
    · exact .inl ((hA x).1 (.inr rfl))
    · exact .inr (e2 x hx)
  rw [rd_tree (by omega), ok_bind]
  rcases parent_cases (t := t) k with ⟨e1, e2⟩ | ⟨p, e1, e2⟩
  · -- a root: the tree is finished
    rw [if_neg (by omega), wp_ok, Ctl.post_brk]
    have hS : S = [] := by
      by_contra hS
      obtain ⟨p, hp, _⟩ := hst.later [] k S rfl hS
      rw [e2] at hp
      cases hp
    subst hS
    have hcnt := h.cnt.root hku.2 e2
    rw [List.append_assoc] at hcnt
    refine ⟨⟨b1, by rw [b4]; exact hcnt, b2, ?_, ?_, ?_⟩, hkeep _ rfl (by simp)⟩
    · intro x hx
      rw [b3] at hx
      rw [← hA]
      rcases hst.mark x hx with hv | hv
      · exact .inl hv
      · exact .inr (by simpa using hv)
    · intro c p hc hp
      rw [← hA] at hp ⊢
      rcases hp with hp | rfl
      · exact .inl (hst.down c p hc hp)
      · exact .inl (hkids c hc)
    · refine ⟨P, k, rfl, e2, ?_⟩
      intro x hx
      obtain ⟨p, hp, hor⟩ := h.open' x hx
      refine ⟨p, hp, ?_⟩
      rcases hor with hor | hor
      · rw [hs] at hor
        obtain rfl : p = k := by simpa using hor
        exact List.Sublist.append (List.singleton_sublist.2 hx) (List.Sublist.refl _)
      · exact hor.trans (List.sublist_append_left _ _)
  · have hkp := hf k p hkn e2
    have hn1 := h.cnt.len
    have hm1 := h.base.mlen
    have hv1 := b1.vlen
    have hcnt := h.cnt.dec hkn hku.2 e2
    rw [List.append_assoc] at hcnt
    have hpV : p ∉ done.flatten ++ (P ++ [k]) := by
      rw [← hA]
      rintro (hp | rfl)
      · exact hku.2 (hst.down k p ⟨hkn, e2⟩ hp)
      · omega
    have hvp : ¬ s1.visited.getD p false = true := fun hv => hpV ((b1.vis p).1 hv)
    rw [e1, if_pos (by omega), Int.toNat_natCast, decChild_eq (by rw [b4]; omega), ok_bind]
    dsimp only
    rw [rd_getD false (by omega), ok_bind, if_neg hvp, rd_getD false (by rw [b3]; omega), ok_bind,
      wr_eq (by rw [b3]; omega), ok_bind, wp_ok, Ctl.post_next, b4, b3, b2]
    have hbase' : ∀ st, Base n t wc oc done (P ++ [k]) { s1 with
        nChild := s.nChild.set p (s.nChild.getD p 0 - 1), stack := st, mark := s.mark.set p true } :=
      fun st => ⟨b1.vlen, by simpa using hm1, b1.olen, b1.parts, b1.cur, b1.vis, b1.nodup, b1.mem, b1.trees, b1.cost⟩
    have hopen : ∀ st : List Nat, p ∈ st → (∀ x ∈ S, x ∈ st) → ∀ x ∈ P ++ [k],
        ∃ q, parentOf t x = some q ∧ (q ∈ st ∨ [x, q].Sublist (P ++ [k])) := by
      intro st hpst hsub x hx
      rcases List.mem_append.1 hx with hxP | hx
      · obtain ⟨q, hq, hor⟩ := h.open' x hxP
        refine ⟨q, hq, ?_⟩
        rcases hor with hor | hor
        · rw [hs, List.mem_cons] at hor
          rcases hor with rfl | hor
          · exact .inr (by
              have := List.Sublist.append (List.singleton_sublist.2 hxP) (List.Sublist.refl [q])
              simpa using this)
          · exact .inl (hsub q hor)
        · exact .inr (hor.trans (List.sublist_append_left _ _))
      · obtain rfl : x = k := by simpa using hx
        exact ⟨p, e2, .inl hpst⟩
    have hmk : ∀ x, (s.mark.set p true).getD x false = true ↔ s.mark.getD x false = true ∨ x = p := by
      intro x
      rw [getD_set]
      by_cases hx : x = p
      · rw [if_pos ⟨hx.symm, by omega⟩]; simp [hx]
      · rw [if_neg (by omega)]; simp [hx]
    by_cases hS : S = []
    · subst hS
      obtain ⟨g1, g2, g3⟩ := hst.pop_last hf hcl e2 hkids
      rw [if_neg g2]
      refine ⟨⟨p, hbase' _, hcnt, g3.congr hA (fun x => (hmk x).symm), hopen _ (by simp) (by simp)⟩, ?_,
        hkeep _ rfl (by simp)⟩
      unfold rounds
      dsimp only
      have := hroom.1
      rw [← hroom.2] at this
      rw [hrl]
      simp only [List.length_singleton]
      simp only [List.length_nil] at hsl
      omega
    · obtain ⟨q, hq, hqS, hqM, g⟩ := hst.pop hS hkids
      rw [e2] at hq
      cases hq
      rw [if_pos hqM]
      refine ⟨⟨b, hbase' _, hcnt, ?_, hopen _ hqS (fun _ h => h)⟩, ?_, hkeep _ rfl (fun _ h => h)⟩
      · refine g.congr hA (fun x => ?_)
        rw [hmk]
        constructor
        · exact .inl
        · rintro (h | rfl)
          · exact h
          · exact hqM
      · unfold rounds
        dsimp only
        have := hroom.1
        rw [← hroom.2] at this
        rw [hrl]
        omega

/-! ### Marking -/

theorem markUp_wp (hl : t.length = n) (hf : Forest n (parentOf t)) {V M : Nat → Prop} {S : List Nat} {b k : Nat}
    {mark : List Bool} (hm : mark.length = n) (h : StackInv n t V M S b)
    (hM : ∀ x, M x ↔ mark.getD x false = true) (hk : k ∈ S) :
    wp (markUp n t S k mark) (fun m => m.length = n ∧ (∀ x, mark.getD x false = true → m.getD x false = true) ∧
      (∀ x, m.getD x false = true → mark.getD x false = true ∨ x ∈ S) ∧ m.getD k false = true ∧
      ∀ x ∈ S, x ≠ b → m.getD x false = true → ∀ p, parentOf t x = some p → m.getD p false = true) := by
  unfold markUp
  rw [h.last]
  dsimp only
  rw [wp_bind]
  refine wp_mono (loopF_wp (Q := fun r : Nat × List Bool => r.1 = b ∧ r.2.length = n ∧
      (∀ x, mark.getD x false = true → r.2.getD x false = true) ∧
      (∀ x, r.2.getD x false = true → mark.getD x false = true ∨ x ∈ S) ∧
      (k = r.1 ∨ r.2.getD k false = true) ∧
      ∀ x ∈ S, x ≠ b → r.2.getD x false = true → ∀ p, parentOf t x = some p →
        r.2.getD p false = true ∨ p = r.1)
    (fun r : Nat × List Bool => r.1 ∈ S ∧ r.2.length = n ∧
      (∀ x, mark.getD x false = true → r.2.getD x false = true) ∧
      (∀ x, r.2.getD x false = true → mark.getD x false = true ∨ x ∈ S) ∧
      (k = r.1 ∨ r.2.getD k false = true) ∧
      ∀ x ∈ S, x ≠ b → r.2.getD x false = true → ∀ p, parentOf t x = some p →
        r.2.getD p false = true ∨ p = r.1)
    (fun r => n - r.1) ?_ (n + 1) (k, mark) (by dsimp only; omega) ?_) ?_
  · rintro ⟨x, m⟩ ⟨h1, h2, h3, h4, h5, h6⟩
    dsimp only at h1 h2 h3 h4 h5 h6
    have hxn := (h.unv x h1).1.1
    unfold markStep
    dsimp only
    by_cases hxb : x = b
    · rw [if_pos hxb, wp_ok, Ctl.post_brk]
      exact ⟨hxb, h2, h3, h4, h5, h6⟩
    · obtain ⟨p, hp, hpS⟩ := h.parent h1 hxb
      have hxp := hf x p hxn hp
      have hpt := parentOf_some.1 hp
      rw [if_neg hxb, wr_eq (by omega), ok_bind, rd_tree (by omega), ok_bind, hpt, if_neg (by omega),
        Int.toNat_natCast, wp_ok, Ctl.post_next]
      have hg : ∀ y, (m.set x true).getD y false = true ↔ m.getD y false = true ∨ y = x := by
        intro y
        rw [getD_set]
        by_cases hy : y = x
        · rw [if_pos ⟨hy.symm, by omega⟩]; simp [hy]
        · rw [if_neg (by omega)]; simp [hy]
      refine ⟨⟨hpS, by simpa using h2, ?_, ?_, ?_, ?_⟩, by dsimp only; omega⟩
      · intro y hy
        exact (hg y).2 (.inl (h3 y hy))
      · intro y hy
        rcases (hg y).1 hy with hy | rfl
        · exact h4 y hy
        · exact .inr h1
      · refine .inr ((hg k).2 ?_)
        rcases h5 with h5 | h5
        · exact .inr h5
        · exact .inl h5
      · intro y hyS hyb hy q hq
        dsimp only at hy ⊢
        rcases (hg y).1 hy with hy | rfl
        · refine .inl ((hg q).2 ?_)
          exact h6 y hyS hyb hy q hq
        · rw [hp] at hq
          cases hq
          exact .inr rfl
  · refine ⟨hk, hm, fun _ h => h, fun _ h => .inl h, .inl rfl, ?_⟩
    intro x hx hxb hmx p hp
    exact .inl ((hM p).1 (h.marked x hx hxb p hp (.inr ((hM x).2 hmx))))
  · rintro ⟨x, m⟩ ⟨h1, h2, h3, h4, h5, h6⟩
    dsimp only at h1 h2 h3 h4 h5 h6
    subst h1
    have hbS : x ∈ S := List.mem_of_getLast? h.last
    have hxn := (h.unv x hbS).1.1
    dsimp only
    rw [wr_eq (by omega), wp_ok]
    have hg : ∀ y, (m.set x true).getD y false = true ↔ m.getD y false = true ∨ y = x := by
      intro y
      rw [getD_set]
      by_cases hy : y = x
      · rw [if_pos ⟨hy.symm, by omega⟩]; simp [hy]
      · rw [if_neg (by omega)]; simp [hy]
    refine ⟨by simpa using h2, fun y hy => (hg y).2 (.inl (h3 y hy)), ?_, (hg k).2 h5.symm, ?_⟩
    · intro y hy
      rcases (hg y).1 hy with hy | rfl
      · exact h4 y hy
      · exact .inr hbS
    · intro y hyS hyb hy p hp
      rcases (hg y).1 hy with hy | rfl
      · exact (hg p).2 (h6 y hyS hyb hy p hp)
      · exact absurd rfl hyb

/-! ### Expanding a node -/

theorem expandChild_wp (hl : t.length = n) (hf : Forest n (parentOf t)) {inCost : List K}
    (hin : inCost = (List.range n).map wc) {childNo : List Nat} {b k i c : Nat} (h : Loop n t wc oc done P s b)
    (hk : k ∈ s.stack) (hi : childNo[i]? = some c) (hc : ChildOf n (parentOf t) c k)
    (hcS : c ∈ done.flatten ++ P ∨ c ∉ s.stack) :
    wp (expandChild n t inCost childNo k i s) (fun s' => ∃ P1 S1, Loop n t wc oc done (P ++ P1) s' b ∧
      s'.stack = S1 ++ s.stack ∧ (∀ x ∈ P1 ++ S1, x = c) ∧ (c ∈ done.flatten ++ P ∨ c ∈ P1 ++ S1)) := by
  have hcn := hc.1
  have hv1 := h.base.vlen
  have hn1 := h.cnt.len
  have hku := h.stk.unv k hk
  unfold expandChild
  rw [show rd childNo i = ok c by unfold rd; rw [hi], ok_bind, rd_getD false (by omega), ok_bind]
  by_cases hv : s.visited.getD c false = true
  · rw [if_pos hv, wp_ok]
    exact ⟨[], [], by simpa using h, by simp, by simp, .inl ((h.base.vis c).1 hv)⟩
  · have hcA : c ∉ done.flatten ++ P := fun hm => hv ((h.base.vis c).2 hm)
    have hcS := hcS.resolve_left hcA
    have hvk : ¬ s.visited.getD k false = true := fun hm => hku.2 ((h.base.vis k).1 hm)
    rw [if_neg hv, rd_getD 0 (by omega), ok_bind]
    by_cases hz : s.nChild.getD c 0 = 0
    · have hkids := (h.cnt.zero hcn).1 hz
      have hkn := hku.1.1
      rw [if_pos hz, rd_getD false (by omega), ok_bind, if_neg hvk, wp_bind]
      refine wp_mono (markUp_wp hl hf h.base.mlen h.stk (fun x => Iff.rfl) hk) ?_
      rintro m ⟨m1, m2, m3, m4, m5⟩
      have hbase : Base n t wc oc done P { s with mark := m } :=
        ⟨h.base.vlen, m1, h.base.olen, h.base.parts, h.base.cur, h.base.vis, h.base.nodup, h.base.mem,
          h.base.trees, h.base.cost⟩
      rw [wp_bind]
      refine wp_mono (addNode_wp hin hbase (inside_of_child hc) hcA) ?_
      rintro s1 ⟨b1, b2, b3, b4⟩
      dsimp only at b2 b3 b4
      have hct := parentOf_some.1 hc.2
      have hck := hf c k hcn hc.2
      rw [rd_tree (by omega), ok_bind, hct, if_neg (by omega), Int.toNat_natCast,
        decChild_eq (by rw [b4]; omega), wp_ok]
      have hcnt := h.cnt.dec hcn hcA hc.2
      rw [List.append_assoc] at hcnt
      refine ⟨[c], [], ⟨⟨b1.vlen, b1.mlen, b1.olen, b1.parts, b1.cur, b1.vis, b1.nodup, b1.mem, b1.trees, b1.cost⟩,
        by rw [b4]; exact hcnt, ?_, ?_⟩, by simpa using b2, by simp, .inr (by simp)⟩
      · dsimp only
        rw [b2, b3]
        refine (h.stk.leaf hk hc hcS hkids m2 m3 m4 m5).congr (fun x => ?_) (fun x => Iff.rfl)
        rw [← List.append_assoc, List.mem_append (s := done.flatten ++ P), List.mem_singleton]
      · intro x hx
        dsimp only
        rw [b2]
        rcases List.mem_append.1 hx with hx | hx
        · obtain ⟨p, hp, hor⟩ := h.open' x hx
          exact ⟨p, hp, hor.imp id (fun h => h.trans (List.sublist_append_left _ _))⟩
        · obtain rfl : x = c := by simpa using hx
          exact ⟨k, hc.2, .inl hk⟩
    · rw [if_neg hz, wp_ok]
      have hkid : ∃ d, ChildOf n (parentOf t) d c := by
        by_contra hno
        push Not at hno
        exact hz ((h.cnt.zero hcn).2 (fun d hd => absurd hd (hno d)))
      refine ⟨[], [c], ⟨⟨h.base.vlen, h.base.mlen, h.base.olen, by rw [List.append_nil]; exact h.base.parts,
        h.base.cur, by rw [List.append_nil]; exact h.base.vis, by rw [List.append_nil]; exact h.base.nodup,
        by rw [List.append_nil]; exact h.base.mem, h.base.trees, by rw [List.append_nil]; exact h.base.cost⟩, by rw [List.append_nil]; exact h.cnt, ?_, ?_⟩,
        rfl, by simp, .inr (by simp)⟩
      · rw [List.append_nil]
        exact h.stk.push hk hc hcS hcA hkid
      · rw [List.append_nil]
        intro x hx
        obtain ⟨p, hp, hor⟩ := h.open' x hx
        exact ⟨p, hp, hor.imp (fun h => by simp [h]) id⟩

theorem expand_wp (hl : t.length = n) (hf : Forest n (parentOf t)) {inCost : List K}
    (hin : inCost = (List.range n).map wc) {childPtr childNo : List Nat} (hK : KidsOk n t childPtr childNo) {b k : Nat}
    {S : List Nat} (h : Loop n t wc oc done P s b) (hs : s.stack = k :: S) (hz : ¬ s.nChild.getD k 0 = 0) :
    wp (forRange (childPtr.getD k 0) (childPtr.getD (k + 1) 0) (expandChild n t inCost childNo k) s)
      (fun s' => ∃ P', Loop n t wc oc done P' s' b ∧ rounds n s' < rounds n s ∧ Keep s s') := by
  have hku := h.stk.unv k (by rw [hs]; simp)
  have hkn := hku.1.1
  have hbd := hK.bounds hkn
  have hnl := hK.noLen
  have hblk := hK.block k hkn
  have hidx : ∀ j, j < childPtr.getD (k + 1) 0 - childPtr.getD k 0 →
      childNo[childPtr.getD k 0 + j]? = (kids n t k)[j]? := by
    intro j hj
    rw [← hblk, getElem?_slice, if_pos (by omega)]
  have hkl : (kids n t k).length = childPtr.getD (k + 1) 0 - childPtr.getD k 0 := by
    rw [← hblk, slice_length (by omega)]
  have hnd := kids_nodup' (n := n) (t := t) k
  have hst := h.stk
  rw [hs] at hst
  refine forRange_wp' (fun i s' => ∃ P1 S1, Loop n t wc oc done (P ++ P1) s' b ∧ s'.stack = S1 ++ s.stack ∧
      (∀ x ∈ P1 ++ S1, x ∈ (kids n t k).take (i - childPtr.getD k 0)) ∧
      ∀ x ∈ (kids n t k).take (i - childPtr.getD k 0), x ∈ done.flatten ++ P ∨ x ∈ P1 ++ S1) hbd.1
    ⟨[], [], by simpa using h, by simp, by simp, by simp⟩ ?_ ?_
  · rintro i s' hi1 hi2 ⟨P1, S1, h1, h2, h3, h4⟩
    obtain ⟨j, rfl⟩ : ∃ j, i = childPtr.getD k 0 + j := ⟨i - childPtr.getD k 0, by omega⟩
    have hj : j < (kids n t k).length := by omega
    obtain ⟨c, hcj⟩ : ∃ c, (kids n t k)[j]? = some c := ⟨_, List.getElem?_eq_getElem hj⟩
    have hc : ChildOf n (parentOf t) c k := mem_kids.1 (List.mem_of_getElem? hcj)
    rw [Nat.add_sub_cancel_left] at h3 h4
    rw [Nat.add_assoc, Nat.add_sub_cancel_left]
    have hcnot : c ∉ (kids n t k).take j := by
      intro hm
      obtain ⟨i', hi', he⟩ := List.mem_iff_getElem.1 hm
      rw [List.getElem_take] at he
      rw [List.length_take] at hi'
      rw [List.getElem?_eq_getElem hj, Option.some.injEq] at hcj
      have := (List.Nodup.getElem_inj_iff hnd).1 (he.trans hcj.symm)
      omega
    have hcS' : c ∉ s'.stack := by
      rw [h2, List.mem_append]
      rintro (hm | hm)
      · exact hcnot (h3 c (by simp [hm]))
      · rw [hs] at hm
        exact hst.top_kids hf hc hm
    refine wp_mono (expandChild_wp hl hf hin h1 (by rw [h2, hs]; simp) (by rw [hidx j (by omega)]; exact hcj) hc
      (.inr hcS')) ?_
    rintro s'' ⟨P2, S2, g1, g2, g3, g4⟩
    rw [List.take_add_one, hcj]
    refine ⟨P1 ++ P2, S2 ++ S1, by rw [← List.append_assoc]; exact g1, by rw [g2, h2, List.append_assoc], ?_, ?_⟩
    · intro x hx
      simp only [List.mem_append] at hx h3 g3
      rw [List.mem_append]
      rcases hx with (hx | hx) | (hx | hx)
      · exact .inl (h3 x (.inl hx))
      · exact .inr (by rw [g3 x (.inl hx)]; simp)
      · exact .inr (by rw [g3 x (.inr hx)]; simp)
      · exact .inl (h3 x (.inr hx))
    · intro x hx
      rw [List.mem_append] at hx
      rcases hx with hx | hx
      · rcases h4 x hx with hm | hm
        · exact .inl hm
        · refine .inr ?_
          simp only [List.mem_append] at hm ⊢
          tauto
      · obtain rfl : x = c := by simpa using hx
        rcases g4 with hm | hm
        · rw [← List.append_assoc, List.mem_append (s := done.flatten ++ P)] at hm
          rcases hm with hm | hm
          · exact .inl hm
          · exact .inr (by simp [hm])
        · refine .inr ?_
          simp only [List.mem_append] at hm ⊢
          tauto
  · rintro s' ⟨P1, S1, h1, h2, h3, h4⟩
    refine ⟨P ++ P1, h1, ?_, ?_⟩
    rotate_left
    · intro x hx
      rw [h.room.2] at hx
      rw [h1.room.2, h2]
      simp only [List.mem_append] at hx ⊢
      tauto
    rw [← hkl, List.take_length] at h4
    have hne : P1 ++ S1 ≠ [] := by
      intro he
      refine hz ((h.cnt.zero hkn).2 (fun c hc => ?_))
      rcases h4 c (mem_kids.2 hc) with hm | hm
      · exact hm
      · rw [he] at hm; simp at hm
    have hpos : 0 < P1.length + S1.length := by
      rw [← List.length_append]; exact List.length_pos_iff.2 hne
    have r0 := h.room
    have r1 := h1.room
    unfold rounds
    rw [r0.2, r1.2, h2]
    have := r1.1
    rw [h2] at this
    simp only [List.length_append] at this ⊢
    omega

/-! ### The whole function -/

theorem splitStep_wp (hl : t.length = n) (hf : Forest n (parentOf t)) (hcl : Closed n t) {inCost : List K}
    (hin : inCost = (List.range n).map wc) {childPtr childNo : List Nat} (hK : KidsOk n t childPtr childNo)
    (h : ∃ P b, Loop n t wc oc done P s b) :
    wp (splitStep n t inCost childPtr childNo s) (Ctl.post (fun s' => (∃ P b, Loop n t wc oc done P s' b) ∧
      rounds n s' < rounds n s ∧ Keep s s') (fun s' => ∃ P, Finished n t wc oc done P s' ∧ Keep s s')) := by
  obtain ⟨P, b, h⟩ := h
  unfold splitStep
  split
  · rename_i hs
    have := h.stk.last
    rw [hs] at this
    cases this
  · rename_i k S hs
    have hkn := (h.stk.unv k (by rw [hs]; simp)).1.1
    have hn1 := h.cnt.len
    have hp1 := hK.ptrLen
    rw [rd_getD 0 (by omega), ok_bind]
    split
    · rename_i hz
      refine wp_mono (popNode_wp hl hf hcl hin h hs hz) ?_
      intro r hr
      refine post_mono (fun s' hs' => ?_) (fun s' hs' => ?_) hr
      · obtain ⟨⟨b', hb'⟩, hr⟩ := hs'
        exact ⟨⟨_, b', hb'⟩, hr⟩
      · exact ⟨_, hs'⟩
    · rename_i hz
      rw [rd_getD 0 (by omega), ok_bind, rd_getD 0 (by omega), ok_bind, wp_bind]
      refine wp_mono (expand_wp hl hf hin hK h hs hz) ?_
      rintro s' ⟨P', h1, h2⟩
      rw [wp_ok, Ctl.post_next]
      exact ⟨⟨P', b, h1⟩, h2⟩

/-- Between two trees. -/
structure Between (n : Nat) (t : List Int) (wc oc : Nat → K) (done : List (List Nat)) (s : Pos K) : Prop where
  base : Base n t wc oc done [] s
  cnt : CntOk n t done.flatten s.nChild
  stack : s.stack = []
  mark : ∀ x, s.mark.getD x false = true → x ∈ done.flatten
  down : ∀ c p, ChildOf n (parentOf t) c p → p ∈ done.flatten → c ∈ done.flatten

/-- With a node its parent is in a finished part. -/
theorem up_of_trees (h : ∀ q ∈ done, IsTree (parentOf t) q) {c p : Nat} (hc : ChildOf n (parentOf t) c p)
    (hm : c ∈ done.flatten) : p ∈ done.flatten := by
  obtain ⟨q, hq, hcq⟩ := List.mem_flatten.1 hm
  obtain ⟨q', r, rfl, hr, hall⟩ := h q hq
  rcases List.mem_append.1 hcq with hcq | hcq
  · obtain ⟨p', hp', hs⟩ := hall c hcq
    rw [hc.2] at hp'
    cases hp'
    exact List.mem_flatten.2 ⟨_, hq, hs.subset (by simp)⟩
  · obtain rfl : c = r := by simpa using hcq
    have := hc.2
    rw [hr] at this
    cases this

theorem getD_append_nil (l : List (List Nat)) (i : Nat) : (l ++ [[]]).getD i [] = l.getD i [] := by
  simp only [List.getD_eq_getElem?_getD, List.getElem?_append]
  split
  · rfl
  · rw [List.getElem?_eq_none (l := l) (by omega)]
    rcases Nat.eq_zero_or_pos (i - l.length) with h | h
    · rw [h]; rfl
    · rw [List.getElem?_eq_none (by simp; omega)]

theorem splitNode_wp (hl : t.length = n) (hf : Forest n (parentOf t)) (hcl : Closed n t) {inCost : List K}
    (hin : inCost = (List.range n).map wc) {childPtr childNo : List Nat} (hK : KidsOk n t childPtr childNo) {u : Nat}
    (hu : u < n) (h : Between n t wc oc done s) (hprev : ∀ x, x < u → Inside n t x → x ∈ done.flatten) :
    wp (splitNode n t inCost childPtr childNo u s) (fun s' => ∃ done', Between n t wc oc done' s' ∧
      ∀ x, x < u + 1 → Inside n t x → x ∈ done'.flatten) := by
  have hv1 := h.base.vlen
  unfold splitNode
  rw [rd_tree (by omega), ok_bind]
  split
  · rename_i h2
    rw [wp_ok]
    refine ⟨done, h, fun x hx hi => hprev x ?_ hi⟩
    have : x ≠ u := by rintro rfl; exact hi.2 h2
    omega
  rename_i h2
  rw [rd_getD false (by omega), ok_bind]
  split
  · rename_i hv
    rw [wp_ok]
    refine ⟨done, h, fun x hx hi => ?_⟩
    by_cases hxu : x = u
    · have := (h.base.vis u).1 hv
      rw [hxu]; simpa using this
    · exact hprev x (by omega) hi
  rename_i hv
  have huA : u ∉ done.flatten := by
    intro hm
    exact hv ((h.base.vis u).2 (by simpa using hm))
  have hstart : Loop n t wc oc done [] { s with stack := s.stack ++ [u] } u := by
    refine ⟨⟨h.base.vlen, h.base.mlen, h.base.olen, h.base.parts, h.base.cur, h.base.vis, h.base.nodup,
      h.base.mem, h.base.trees, h.base.cost⟩, by rw [List.append_nil]; exact h.cnt, ?_, by simp⟩
    rw [h.stack, List.append_nil]
    exact StackInv.start ⟨hu, h2⟩ huA h.down (fun c p hc hm => up_of_trees h.base.trees hc hm) h.mark
  rw [wp_bind]
  have hrounds : rounds n { s with stack := s.stack ++ [u] } < 2 * n + 1 := by
    unfold rounds; dsimp only; omega
  have hloop : wp (loopF (2 * n + 1) (splitStep n t inCost childPtr childNo)
      { s with stack := s.stack ++ [u] }) (fun s' => ∃ P, Finished n t wc oc done P s' ∧ u ∈ done.flatten ++ P) := by
    refine loopF_wp (fun s' => (∃ P b, Loop n t wc oc done P s' b) ∧ (u ∈ s'.parts.flatten ∨ u ∈ s'.stack))
      (rounds n) ?_ (2 * n + 1) _ hrounds ⟨⟨[], u, hstart⟩, .inr (by simp)⟩
    rintro s1 ⟨h1, h2⟩
    refine wp_mono (splitStep_wp hl hf hcl hin hK h1) ?_
    intro r hr
    refine post_mono (fun s' hs' => ?_) (fun s' hs' => ?_) hr
    · exact ⟨⟨hs'.1, hs'.2.2 u h2⟩, hs'.2.1⟩
    · obtain ⟨P, hP, hk⟩ := hs'
      refine ⟨P, hP, ?_⟩
      have := hk u h2
      rw [hP.stack, hP.base.parts] at this
      simpa using this
  refine wp_mono hloop ?_
  rintro s1 ⟨P, hP, hu1⟩
  rw [wp_ok]
  have hfl : (done ++ [P]).flatten = done.flatten ++ P := by simp
  refine ⟨done ++ [P], ⟨⟨hP.base.vlen, hP.base.mlen, hP.base.olen, by rw [hP.base.parts], by
      dsimp only; rw [hP.base.cur]; simp, ?_, ?_, ?_, ?_, ?_⟩, ?_, hP.stack, ?_, ?_⟩, ?_⟩
  · intro x
    rw [List.append_nil, hfl]
    exact hP.base.vis x
  · rw [List.append_nil, hfl]
    exact hP.base.nodup
  · intro x hx
    rw [List.append_nil, hfl] at hx
    exact hP.base.mem x hx
  · intro q hq
    rcases List.mem_append.1 hq with hq | hq
    · exact h.base.trees q hq
    · obtain rfl : q = P := by simpa using hq
      exact hP.tree
  · intro i hi
    rw [hP.base.cost i hi, getD_append_nil]
  · rw [hfl]
    exact hP.cnt
  · intro x hx
    rw [hfl]
    exact hP.mark x hx
  · intro c p hc hp
    rw [hfl] at hp ⊢
    exact hP.down c p hc hp
  · intro x hx hi
    rw [hfl]
    by_cases hxu : x = u
    · rw [hxu]; exact hu1
    · exact List.mem_append_left _ (hprev x (by omega) hi)

/-- The labels: every node of a part has the number of the part, the others keep their label. -/
def Labelled (n : Nat) (parts : List (List Nat)) (lab0 lab : List Int) : Prop :=
  lab.length = n ∧ (∀ (i : Nat) (q : List Nat), parts[i]? = some q → ∀ x ∈ q, lab.getD x (-1) = (i : Int)) ∧
    ∀ x, x ∉ parts.flatten → lab.getD x (-1) = lab0.getD x (-1)

theorem labelParts_wp {debug : Bool} {parts : List (List Nat)} {lab0 : List Int} (hlab : lab0.length = n)
    (hnd : parts.flatten.Nodup) (hmem : ∀ x ∈ parts.flatten, x < n) :
    wp (labelParts debug n parts parts.length lab0) (Labelled n parts lab0) := by
  unfold labelParts
  refine forRange_wp' (fun i lab => Labelled n (parts.take i) lab0 lab) (Nat.zero_le _)
    ⟨hlab, by simp, by simp⟩ ?_ ?_
  · rintro i lab _ hi ⟨h1, h2, h3⟩
    obtain ⟨q, hq⟩ : ∃ q, parts[i]? = some q := ⟨_, List.getElem?_eq_getElem hi⟩
    have htake : parts.take (i + 1) = parts.take i ++ [q] := by rw [List.take_add_one, hq]; rfl
    have hqm : q ∈ parts := List.mem_of_getElem? hq
    rw [show rd parts i = ok q by unfold rd; rw [hq], ok_bind]
    have hdisj : ∀ x ∈ q, x ∉ (parts.take i).flatten := by
      intro x hx hm
      have := hnd
      rw [← List.take_append_drop (i + 1) parts, List.flatten_append] at this
      replace this := (List.nodup_append.1 this).1
      rw [htake, List.flatten_append, List.flatten_singleton, List.nodup_append] at this
      exact this.2.2 x hm x hx rfl
    have key := forEach_wp (f := fun x (lab : List Int) =>
        if debug = true ∧ ¬ x < n then exn else wr lab x (i : Int))
      (fun pre lab' => lab'.length = n ∧ (∀ x ∈ pre, lab'.getD x (-1) = (i : Int)) ∧
        ∀ x, x ∉ pre → lab'.getD x (-1) = lab.getD x (-1)) q [] lab ⟨h1, by simp, by simp⟩ ?_
    · refine wp_mono key ?_
      rintro lab' ⟨g1, g2, g3⟩
      rw [List.nil_append] at g2 g3
      refine ⟨g1, ?_, ?_⟩
      · intro j q' hj x hx
        rw [htake, List.getElem?_append] at hj
        split at hj
        · rename_i hlt
          rw [g3 x (fun hxq => hdisj x hxq (List.mem_flatten.2 ⟨q', List.mem_of_getElem? hj, hx⟩))]
          exact h2 j q' hj x hx
        · rename_i hlt
          have hjl := List.getElem?_eq_some_iff.1 hj
          obtain ⟨hjl, he⟩ := hjl
          have hj0 : j - (parts.take i).length = 0 := by simpa using hjl
          have : j = i := by rw [List.length_take] at *; omega
          subst this
          rw [List.getElem_singleton] at he
          subst he
          exact g2 x hx
      · intro x hx
        rw [htake, List.flatten_append, List.flatten_singleton, List.mem_append, not_or] at hx
        rw [g3 x hx.2, h3 x hx.1]
    · rintro p a r lab' hp ⟨g1, g2, g3⟩
      rw [List.nil_append] at hp
      have ha : a < n := hmem a (List.mem_flatten.2 ⟨q, hqm, by rw [hp]; simp⟩)
      rw [if_neg (by simp [ha]), wr_eq (by omega), wp_ok]
      refine ⟨by simpa using g1, ?_, ?_⟩
      · intro x hx
        rw [getD_set]
        by_cases hxa : x = a
        · rw [if_pos ⟨hxa.symm, by omega⟩]
        · rw [if_neg (by omega)]
          exact g2 x (by simpa [hxa] using hx)
      · intro x hx
        rw [getD_set, if_neg (by rintro ⟨rfl, _⟩; simp at hx)]
        exact g3 x (by intro h; exact hx (by simp [h]))
  · intro lab h
    rw [List.take_length] at h
    exact h

/-- What the splitting gives. -/
structure SplitOk (n : Nat) (t : List Int) (parts : List (List Nat)) : Prop where
  nodup : parts.flatten.Nodup
  mem : ∀ x, x ∈ parts.flatten ↔ Inside n t x
  trees : ∀ q ∈ parts, IsTree (parentOf t) q

/-- A part contains with a node all its children and its parent. -/
theorem SplitOk.closed {parts : List (List Nat)} (h : SplitOk n t parts) {q : List Nat} (hq : q ∈ parts)
    {c p : Nat} (hc : ChildOf n (parentOf t) c p) : c ∈ q ↔ p ∈ q := by
  have hup : ∀ q ∈ parts, c ∈ q → p ∈ q := by
    intro q hq hcq
    obtain ⟨q', r, rfl, hr, hall⟩ := h.trees q hq
    rcases List.mem_append.1 hcq with hcq | hcq
    · obtain ⟨p', hp', hs⟩ := hall c hcq
      rw [hc.2] at hp'
      cases hp'
      exact hs.subset (by simp)
    · obtain rfl : c = r := by simpa using hcq
      have := hc.2
      rw [hr] at this
      cases this
  refine ⟨hup q hq, fun hp => ?_⟩
  obtain ⟨q2, hq2, hc2⟩ := List.mem_flatten.1 ((h.mem c).2 (inside_of_child hc))
  have hp2 := hup q2 hq2 hc2
  by_cases he : q2 = q
  · rw [← he]; exact hc2
  · exfalso
    have hd := (List.nodup_flatten.1 h.nodup).2
    obtain ⟨i, hi, rfl⟩ := List.mem_iff_getElem.1 hq
    obtain ⟨j, hj, rfl⟩ := List.mem_iff_getElem.1 hq2
    rw [List.pairwise_iff_getElem] at hd
    rcases Nat.lt_trichotomy i j with hij | rfl | hij
    · exact hd i j hi hj hij hp hp2
    · exact he rfl
    · exact hd j i hj hi hij hp2 hp

theorem postOrderSplit_wp (hl : t.length = n) (hf : Forest n (parentOf t)) (hcl : Closed n t)
    {inCost : List K} (hin : inCost = (List.range n).map wc) {childPtr childNo : List Nat}
    (hK : KidsOk n t childPtr childNo) {nChild : List Int}
    (hc : nChild.length = n ∧ ∀ v, v < n → nChild.getD v 0 = ((kids n t v).length : Int))
    {debug : Bool} {num : Nat} (hnum : num ≠ 0) {outCost : List K} (ho : outCost = (List.range n).map oc) {lab : List Int}
    (hlab : lab.length = n) :
    wp (postOrderSplit debug n t inCost childPtr childNo nChild num outCost lab)
      (fun r => SplitOk n t r.1 ∧ (∀ i, i < n → r.2.1[i]? = some ((r.1.getD i []).foldl (fun a x => a + wc x) (oc i))) ∧
        r.2.1.length = n ∧ Labelled n r.1 lab r.2.2) := by
  unfold postOrderSplit
  rw [if_neg hnum, wp_bind]
  refine wp_mono (forRange_wp (fun u s => ∃ done, Between n t wc oc done s ∧
    ∀ x, x < u → Inside n t x → x ∈ done.flatten) (Nat.zero_le _) ⟨[], ?_, by simp⟩ ?_) ?_
  · have hrep : ∀ x, (List.replicate n false).getD x false = true ↔ False := by
      intro x
      rw [List.getD_eq_getElem?_getD, List.getElem?_replicate]
      split <;> simp
    refine ⟨⟨by simp, by simp, by rw [ho]; simp, rfl, rfl, ?_, by simp, by simp, by simp, ?_⟩, ⟨hc.1, ?_⟩, rfl, ?_, by simp⟩
    · intro x
      dsimp only
      rw [hrep]
      simp
    · intro i hi
      dsimp only
      rw [ho, getD_append_nil []]
      simp [hi]
    · intro v hv
      rw [hc.2 v hv]
      simp
    · intro x hx
      dsimp only at hx
      rw [hrep] at hx
      exact hx.elim
  · rintro u s _ hu ⟨done, h1, h2⟩
    exact splitNode_wp hl hf hcl hin hK hu h1 h2
  · rintro s ⟨done, h1, h2⟩
    have hp := h1.base.parts
    have hnd := h1.base.nodup
    rw [List.append_nil] at hnd
    have hmem : ∀ x ∈ done.flatten, Inside n t x := fun x hx => h1.base.mem x (by simpa using hx)
    dsimp only
    rw [hp, List.dropLast_concat, h1.base.cur, wp_bind]
    refine wp_mono (labelParts_wp hlab hnd (fun x hx => (hmem x hx).1)) ?_
    intro lab' hlab'
    rw [wp_ok]
    exact ⟨⟨hnd, fun x => ⟨hmem x, fun hi => h2 x hi.1 hi⟩, h1.base.trees⟩, fun i hi => by
      rw [← getD_append_nil]; exact h1.base.cost i hi, h1.base.olen, hlab'⟩

end Verif.Split
