import Verif.Proof.TreeTrav
import Verif.Proof.SchedBuild
import Mathlib.Data.List.Sort

/-! # The loops of tree-based grouping -/

namespace Verif.Group
open Res

variable {g : Csc}

/-! ### Blocks of the emitted list -/

/-- The last entry of a pointer array. -/
def lastPtr (ptr : List Nat) : Nat := ptr.getD (ptr.length - 1) 0

theorem back_eq {ptr : List Nat} (h : ptr ≠ []) : back ptr = ok (lastPtr ptr) := by
  unfold back lastPtr
  rw [List.getLast?_eq_getElem?, getElem?_getD 0 (by have := List.length_pos_of_ne_nil h; omega)]

theorem lastPtr_append (ptr : List Nat) (c : Nat) : lastPtr (ptr ++ [c]) = c := by
  simp [lastPtr]

/-- Finished groups: non-empty blocks of at most `L` nodes of one tree. -/
structure Blocks (g : Csc) (L : Nat) (E ptr : List Nat) : Prop where
  first : ptr.getD 0 0 = 0
  step : ∀ j, j + 1 < ptr.length → ptr.getD j 0 < ptr.getD (j + 1) 0 ∧
    ptr.getD (j + 1) 0 ≤ E.length ∧ ptr.getD (j + 1) 0 - ptr.getD j 0 ≤ L ∧
    ∀ x ∈ slice E (ptr.getD j 0) (ptr.getD (j + 1) 0),
      ∀ y ∈ slice E (ptr.getD j 0) (ptr.getD (j + 1) 0), treeRoot g x = treeRoot g y

theorem slice_append_left {α : Type} (E l : List α) {a b : Nat} (hb : b ≤ E.length) :
    slice (E ++ l) a b = slice E a b := by
  apply List.ext_getElem?
  intro k
  rw [getElem?_slice, getElem?_slice]
  split
  · rw [List.getElem?_append_left (by omega)]
  · rfl

theorem Blocks.mono {L : Nat} {E ptr l : List Nat} (h : Blocks g L E ptr) :
    Blocks g L (E ++ l) ptr := by
  refine ⟨h.first, fun j hj => ?_⟩
  obtain ⟨h1, h2, h3, h4⟩ := h.step j hj
  refine ⟨h1, by rw [List.length_append]; omega, h3, ?_⟩
  rw [slice_append_left _ _ h2]; exact h4

theorem Blocks.push {L : Nat} {E ptr : List Nat} {c : Nat} (h : Blocks g L E ptr) (hne : ptr ≠ [])
    (hc : c ≤ E.length) (h1 : lastPtr ptr < c) (h2 : c - lastPtr ptr ≤ L) {R : Nat}
    (h3 : ∀ x ∈ slice E (lastPtr ptr) c, treeRoot g x = R) :
    Blocks g L E (ptr ++ [c]) := by
  have hp := List.length_pos_of_ne_nil hne
  refine ⟨?_, ?_⟩
  · rw [getD_append_left _ _ _ hp]; exact h.first
  · intro j hj
    simp only [List.length_append, List.length_singleton] at hj
    rw [getD_append_left _ _ _ (by omega)]
    by_cases hj' : j + 1 < ptr.length
    · rw [getD_append_left _ _ _ hj']; exact h.step j hj'
    · have hj2 : j + 1 = ptr.length := by omega
      have e : (ptr ++ [c]).getD (j + 1) 0 = c := by rw [hj2]; simp
      have e2 : ptr.getD j 0 = lastPtr ptr := by unfold lastPtr; congr 1; omega
      rw [e, e2]
      exact ⟨h1, hc, h2, fun x hx y hy => by rw [h3 x hx, h3 y hy]⟩

/-! ### Invariants -/

/-- The nodes written to `group_set` so far. -/
def emitted (s : Trav) : List Nat := s.set.take s.cnt

/-- Invariant of both loops. -/
structure Core (g : Csc) (R : Nat) (s : Trav) : Prop where
  ti : TI g (emitted s) R s
  slen : s.set.length = g.n
  cle : s.cnt ≤ g.n
  closed : ∀ w ∈ emitted s, ∀ u, g.Dep u w → u ∈ known (emitted s) s
  sinks : ∀ v, v < g.n → (g.col v).length = 1 → v ∈ known (emitted s) s
  num : s.ngroups = s.ptr.length

/-- Invariant of the group pointer: the current group starts at the last pointer. -/
structure Cur (g : Csc) (L R : Nat) (s : Trav) : Prop where
  ne : s.ptr ≠ []
  blocks : Blocks g L (emitted s) s.ptr
  le : lastPtr s.ptr ≤ s.cnt
  rt : ∀ x ∈ slice (emitted s) (lastPtr s.ptr) s.cnt, treeRoot g x = R
  last : s.last = lastPtr s.ptr
  small : s.cnt - lastPtr s.ptr ≤ L ∧ (s.stack ≠ [] → s.cnt - lastPtr s.ptr < L)

theorem emitted_length {R : Nat} {s : Trav} (h : Core g R s) : (emitted s).length = s.cnt := by
  unfold emitted
  rw [List.length_take, h.slen]
  have := h.cle
  omega

theorem lt_of_stack {R : Nat} {s : Trav} (h : Core g R s) (hs : s.stack ≠ []) : s.cnt < g.n := by
  have h1 := emitted_length h
  have h2 : (known (emitted s) s).length ≤ g.n := by
    have := (List.subperm_of_subset h.ti.nodup
      (fun v hv => List.mem_range.2 (h.ti.lt v hv)) : (known (emitted s) s).Subperm (List.range g.n))
    simpa using this.length_le
  have h3 := List.length_pos_of_ne_nil hs
  simp only [known, List.length_append] at h2
  omega

theorem lt_of_roots {R : Nat} {s : Trav} (h : Core g R s) (hs : s.roots ≠ []) : s.cnt < g.n := by
  have h1 := emitted_length h
  have h2 : (known (emitted s) s).length ≤ g.n := by
    have := (List.subperm_of_subset h.ti.nodup
      (fun v hv => List.mem_range.2 (h.ti.lt v hv)) : (known (emitted s) s).Subperm (List.range g.n))
    simpa using this.length_le
  have h3 := List.length_pos_of_ne_nil hs
  simp only [known, List.length_append] at h2
  omega

/-- Taking the front of the stack. -/
theorem TI.pop {E : List Nat} {R : Nat} {s s' : Trav} (h : TI g E R s) {a : Nat} {t : List Nat}
    (hs : s.stack = a :: t) (h1 : s'.stack = t) (h2 : s'.roots = s.roots)
    (h3 : s'.visited = s.visited) : TI g (E ++ [a]) R s' := by
  have hk : known (E ++ [a]) s' = known E s := by simp [known, hs, h1, h2]
  refine ⟨by rw [h3]; exact h.vlen, by rw [hk]; exact h.lt, by rw [hk]; exact h.nodup, ?_, ?_, ?_, ?_⟩
  · intro v hv
    rw [h3, h.vis v hv, hs, h1, h2]
    simp only [List.mem_append, List.mem_cons]
    tauto
  · intro pre u post w he hc hd
    rcases List.eq_nil_or_concat post with hp | ⟨post', b, hp⟩
    · subst hp
      obtain ⟨e1, e2⟩ := List.append_inj' he rfl
      simp only [List.cons.injEq, and_true] at e2
      subst e1; subst e2
      exact h.wait a w (by rw [hs]; simp) hc hd
    · rw [List.concat_eq_append] at hp
      subst hp
      rw [← List.cons_append, ← List.append_assoc] at he
      obtain ⟨e1, _⟩ := List.append_inj' he rfl
      exact h.ord pre u post' w e1 hc hd
  · intro u w hu hc hd
    refine List.mem_append_left _ (h.wait u w ?_ hc hd)
    rw [h1, h2] at hu
    rw [hs]
    simp only [List.mem_append, List.mem_cons] at hu ⊢
    tauto
  · intro u hu
    rw [h1] at hu
    exact h.rt u (by rw [hs]; simp [hu])

/-- Starting a group from a root. -/
theorem TI.root {E : List Nat} {R : Nat} {s s' : Trav} (h : TI g E R s) {a : Nat}
    (hs : s.stack = []) (hr : s.roots.Perm (a :: s'.roots)) (h1 : s'.stack = [a])
    (h3 : s'.visited = s.visited.set a true) : TI g E (treeRoot g a) s' := by
  have hp : (known E s').Perm (known E s) := by
    simp only [known, hs, h1, List.nil_append, List.singleton_append]
    exact hr.symm.append_left _
  have ha : a < g.n := h.lt a (hp.mem_iff.1 (by simp [known, h1]))
  refine ⟨by rw [h3, List.length_set]; exact h.vlen, fun v hv => h.lt v (hp.mem_iff.1 hv),
    hp.nodup_iff.2 h.nodup, ?_, h.ord, ?_, ?_⟩
  · intro v hv
    rw [h3, getD_set]
    by_cases hva : v = a
    · subst hva
      rw [if_pos ⟨rfl, by rw [h.vlen]; exact ha⟩]
      simp [h1]
    · rw [if_neg (fun h => hva h.1.symm), h.vis v hv, hs, h1, hr.mem_iff]
      simp [hva]
  · intro u w hu hc hd
    refine h.wait u w ?_ hc hd
    rw [hs, List.nil_append, hr.mem_iff]
    rw [h1] at hu
    simpa using hu
  · intro u hu
    rw [h1] at hu
    simp only [List.mem_singleton] at hu
    rw [hu]

theorem TI.congr {E : List Nat} {R R' : Nat} {s s' : Trav} (h : TI g E R s)
    (hp : (s'.stack ++ s'.roots).Perm (s.stack ++ s.roots)) (h3 : s'.visited = s.visited)
    (hv : ∀ v, (v ∈ s'.stack ∨ (v ∈ s'.roots ∧ (g.col v).length ≠ 1)) ↔
      (v ∈ s.stack ∨ (v ∈ s.roots ∧ (g.col v).length ≠ 1)))
    (hr : ∀ u ∈ s'.stack, treeRoot g u = R') : TI g E R' s' := by
  have hk : (known E s').Perm (known E s) := hp.append_left _
  refine ⟨by rw [h3]; exact h.vlen, fun v hv => h.lt v (hk.mem_iff.1 hv), hk.nodup_iff.2 h.nodup,
    ?_, h.ord, fun u w hu => h.wait u w (hp.mem_iff.1 hu), hr⟩
  intro v hvn
  rw [h3, h.vis v hvn, hv v]

theorem take_set_same {l : List Nat} {c a : Nat} (hc : c < l.length) :
    (l.set c a).take (c + 1) = l.take c ++ [a] := by
  rw [List.take_add_one, List.take_set_of_le (le_refl _), List.getElem?_set_self hc]
  rfl

/-! ### `treeBasedGrouping` -/

theorem treeStep_wp (hg : g.WF) (hd : g.OneDiag) (hl : g.Lower) {B : Sp Nat} (hB : RowsOf g B)
    {L R : Nat} {s : Trav} (hC : Core g R s) (hU : Cur g L R s) (hs : s.stack ≠ []) :
    wp (treeStep L g.p B s) fun s' => Core g R s' ∧ Cur g L R s' ∧ s'.cnt = s.cnt + 1 := by
  have hlt := lt_of_stack hC hs
  have hel := emitted_length hC
  unfold treeStep
  cases hst : s.stack with
  | nil => exact absurd hst hs
  | cons a t =>
    simp only [popFront, ok_bind, wp_bind]
    have hTI := hC.ti.pop (s' := { s with stack := t }) hst rfl rfl rfl
    have hRa : treeRoot g a = R := hC.ti.rt a (by rw [hst]; simp)
    refine wp_mono (visitChildren_wp hg hd hl hB hTI (h := a) (by simp) hRa) ?_
    rintro s1 ⟨k1, k2, k3, k4⟩
    have hset : s1.set = s.set := k2.set
    have hcnt : s1.cnt = s.cnt := k2.cnt
    have hptr : s1.ptr = s.ptr := k2.ptr
    have hlast : s1.last = s.last := k2.last
    have hng : s1.ngroups = s.ngroups := k2.ngroups
    rw [hset, hcnt, hptr, hlast, hng, wr_eq (by rw [hC.slen]; exact hlt)]
    simp only [wp_ok]
    have hem : ∀ s2 : Trav, s2.set = s.set.set s.cnt a → s2.cnt = s.cnt + 1 →
        emitted s2 = emitted s ++ [a] := by
      intro s2 e1 e2
      rw [emitted, e1, e2, take_set_same (by rw [hC.slen]; exact hlt)]; rfl
    have hkn : known (emitted s ++ [a]) { s with stack := t } = known (emitted s) s := by
      simp [known, hst]
    have hcore : ∀ s2 : Trav, s2.set = s.set.set s.cnt a → s2.cnt = s.cnt + 1 →
        s2.stack = s1.stack → s2.roots = s1.roots → s2.visited = s1.visited →
        s2.ngroups = s2.ptr.length → Core g R s2 := by
      intro s2 e1 e2 e3 e4 e5 e6
      have hk : known (emitted s2) s2 = known (emitted s ++ [a]) s1 := by
        rw [hem s2 e1 e2]; simp [known, e3, e4]
      refine ⟨?_, by rw [e1]; simpa using hC.slen, by omega, ?_, ?_, e6⟩
      · rw [hem s2 e1 e2]
        exact k1.congr (by rw [e3, e4]) e5 (by intro v; rw [e3, e4]) (by rw [e3]; exact k1.rt)
      · intro w hw u hu
        rw [hk]
        rw [hem s2 e1 e2] at hw
        rcases List.mem_append.1 hw with h5 | h5
        · exact k3 u (by rw [hkn]; exact hC.closed w h5 u hu)
        · simp only [List.mem_singleton] at h5
          subst h5
          exact k4 u hu
      · intro v hv hc
        rw [hk]
        exact k3 v (by rw [hkn]; exact hC.sinks v hv hc)
    have hnum := hC.num
    have hrt : ∀ x ∈ slice (emitted s ++ [a]) (lastPtr s.ptr) (s.cnt + 1), treeRoot g x = R := by
      intro x hx
      rw [slice_succ (v := a) (by exact hU.le) (by
        rw [List.getElem?_append_right (by omega), hel]; simp)] at hx
      rcases List.mem_append.1 hx with h5 | h5
      · rw [slice_append_left _ _ (by omega)] at h5
        exact hU.rt x h5
      · simp only [List.mem_singleton] at h5; rw [h5]; exact hRa
    have hsm := hU.small.2 hs
    have hle := hU.le
    have hla := hU.last
    by_cases hlim : s.cnt + 1 - s.last = L
    · rw [if_pos hlim, wp_ok]
      refine ⟨hcore _ rfl rfl rfl rfl rfl (by simp [hnum]), ?_, rfl⟩
      refine ⟨by simp, ?_, ?_, ?_, ?_, ?_⟩
      · dsimp only
        rw [hem _ rfl rfl]
        exact hU.blocks.mono.push hU.ne (by simp; omega) (by omega) (by omega) hrt
      · dsimp only; rw [lastPtr_append]
      · dsimp only; rw [lastPtr_append, slice_self]; simp
      · dsimp only; rw [lastPtr_append]
      · dsimp only; rw [lastPtr_append]; constructor
        · omega
        · intro _; omega
    · rw [if_neg hlim, wp_ok]
      refine ⟨hcore _ rfl rfl rfl rfl rfl hnum, ?_, rfl⟩
      refine ⟨hU.ne, ?_, ?_, ?_, ?_, ?_⟩
      · dsimp only
        rw [hem _ rfl rfl]
        exact hU.blocks.mono
      · dsimp only; omega
      · dsimp only; rw [hem _ rfl rfl]; exact hrt
      · exact hla
      · dsimp only; constructor
        · omega
        · intro _; omega

theorem treeInner_wp (hg : g.WF) (hd : g.OneDiag) (hl : g.Lower) {B : Sp Nat} (hB : RowsOf g B)
    {L R : Nat} {s : Trav} (hC : Core g R s) (hU : Cur g L R s) (hs : s.stack ≠ []) :
    wp (whileF g.n (fun s => ok (!s.stack.isEmpty)) (treeStep L g.p B) s) fun s' =>
      Core g R s' ∧ Cur g L R s' ∧ s'.stack = [] ∧ s.cnt < s'.cnt := by
  refine whileF_wp (fun s' => Core g R s' ∧ Cur g L R s' ∧ s.cnt ≤ s'.cnt ∧
    (s'.stack = [] → s.cnt < s'.cnt)) (fun s' => g.n - s'.cnt) ?_ g.n s (by omega)
    ⟨hC, hU, le_refl _, fun h => absurd h hs⟩
  rintro s1 ⟨h1, h2, h3, h4⟩
  rw [wp_ok]
  by_cases he : s1.stack = []
  · simp only [he, List.isEmpty_nil, Bool.not_true, Bool.false_eq_true, if_false]
    exact ⟨h1, h2, trivial, h4 he⟩
  · have : (!s1.stack.isEmpty) = true := by simp [he]
    rw [this]
    simp only [if_true]
    have hlt := lt_of_stack h1 he
    refine ⟨by omega, wp_mono (treeStep_wp hg hd hl hB h1 h2 he) ?_⟩
    rintro s2 ⟨k1, k2, k3⟩
    exact ⟨⟨k1, k2, by omega, fun _ => by omega⟩, by omega⟩

theorem treeRound_wp (hg : g.WF) (hd : g.OneDiag) (hl : g.Lower) {B : Sp Nat} (hB : RowsOf g B)
    {L R : Nat} (hL : 0 < L) {s : Trav} (hC : Core g R s) (hU : Cur g L R s) (hs : s.stack = [])
    (hr : s.roots ≠ []) :
    wp (treeRound L g.n g.p B s) fun s' =>
      (∃ R', Core g R' s' ∧ Cur g L R' s') ∧ s'.stack = [] ∧ s.cnt < s'.cnt := by
  obtain ⟨l, a, hla⟩ : ∃ l a, s.roots = l ++ [a] := by
    rcases List.eq_nil_or_concat s.roots with h | ⟨l, a, h⟩
    · exact absurd h hr
    · exact ⟨l, a, by rw [h, List.concat_eq_append]⟩
  have hel := emitted_length hC
  have han : a < g.n := hC.ti.lt a (by simp [known, hla])
  unfold treeRound
  have hbr : back s.roots = ok a := by simp [back, hla]
  rw [hbr, ok_bind, wr_eq (by rw [hC.ti.vlen]; exact han), ok_bind, back_eq hU.ne, ok_bind]
  dsimp only
  have hdl : s.roots.dropLast = l := by rw [hla]; simp
  rw [hdl, hs, List.nil_append]
  have hfin : ∀ s1 : Trav, s1.stack = [a] → s1.roots = l → s1.visited = s.visited.set a true →
      s1.set = s.set → s1.cnt = s.cnt → s1.ngroups = s1.ptr.length → s1.ptr ≠ [] →
      Blocks g L (emitted s) s1.ptr → lastPtr s1.ptr = s.cnt → s1.last = s.cnt →
      wp (whileF g.n (fun s => ok (!s.stack.isEmpty)) (treeStep L g.p B) s1) fun s' =>
        (∃ R', Core g R' s' ∧ Cur g L R' s') ∧ s'.stack = [] ∧ s.cnt < s'.cnt := by
    intro s1 e1 e2 e3 e4 e5 e6 e7 e8 e9 e10
    have hem : emitted s1 = emitted s := by rw [emitted, e4, e5]; rfl
    have hperm : s.roots.Perm (a :: s1.roots) := by
      rw [hla, e2]; exact List.perm_append_comm
    have hkp : (known (emitted s1) s1).Perm (known (emitted s) s) := by
      rw [hem]
      simp only [known, hs, e1, List.nil_append, List.singleton_append]
      exact hperm.symm.append_left _
    have hC1 : Core g (treeRoot g a) s1 := by
      refine ⟨?_, by rw [e4]; exact hC.slen, by rw [e5]; exact hC.cle, ?_, ?_, e6⟩
      · rw [hem]; exact hC.ti.root hs hperm e1 e3
      · intro w hw u hu
        rw [hem] at hw
        exact hkp.mem_iff.2 (hC.closed w hw u hu)
      · intro v hv hc
        exact hkp.mem_iff.2 (hC.sinks v hv hc)
    have hU1 : Cur g L (treeRoot g a) s1 := by
      refine ⟨e7, by rw [hem]; exact e8, by omega, ?_, by omega, by omega, fun _ => by omega⟩
      rw [e9, e5, slice_self]; simp
    refine wp_mono (treeInner_wp hg hd hl hB hC1 hU1 (by rw [e1]; simp)) ?_
    rintro s' ⟨m1, m2, m3, m4⟩
    exact ⟨⟨_, m1, m2⟩, m3, by omega⟩
  by_cases hb : lastPtr s.ptr ≠ s.cnt
  · rw [if_pos hb]
    refine hfin _ rfl rfl rfl rfl rfl ?_ ?_ ?_ ?_ rfl
    · simp [hC.num]
    · simp
    · have h1 := hU.le
      exact hU.blocks.push hU.ne (by omega) (by omega) hU.small.1 hU.rt
    · exact lastPtr_append _ _
  · rw [if_neg hb]
    have hb' : lastPtr s.ptr = s.cnt := by omega
    exact hfin _ rfl rfl rfl rfl rfl hC.num hU.ne hU.blocks hb' rfl

theorem sinks_eq (hg : g.WF) :
    sinks g.n g.p = ok ((List.range g.n).filter fun v => (g.col v).length = 1) := by
  have : wp (sinks g.n g.p) fun r => r = (List.range g.n).filter fun v => (g.col v).length = 1 := by
    unfold sinks
    refine forRange_wp' (fun i acc => acc = (List.range i).filter fun v => (g.col v).length = 1)
      (Nat.zero_le _) (by simp) ?_ (fun s h => h)
    intro i acc _ hi hI
    rw [hg.rd_p (by omega), ok_bind, hg.rd_p (by omega), ok_bind]
    have hc := hg.col_length hi
    have hm := hg.mono i hi
    rw [List.range_succ, List.filter_append]
    by_cases h : g.ptr (i + 1) = g.ptr i + 1
    · rw [if_pos h, wp_ok, hI]
      have : (g.col i).length = 1 := by omega
      simp [this]
    · rw [if_neg h, wp_ok, hI]
      have : (g.col i).length ≠ 1 := by omega
      simp [this]
  obtain ⟨r, h1, h2⟩ := wp_iff.1 this
  rw [h1, h2]

/-- Invariant at the start. -/
theorem core_init {s : Trav}
    (hs : s.stack = []) (hr : s.roots = (List.range g.n).filter fun v => (g.col v).length = 1)
    (hv : s.visited = List.replicate g.n false) (hset : s.set = List.replicate g.n 0)
    (hc : s.cnt = 0) (hn : s.ngroups = s.ptr.length) : Core g 0 s := by
  have he : emitted s = [] := by simp [emitted, hc]
  have hk : known (emitted s) s = (List.range g.n).filter fun v => (g.col v).length = 1 := by
    simp [known, he, hs, hr]
  refine ⟨⟨by simp [hv], ?_, ?_, ?_, ?_, ?_, by simp [hs]⟩, by simp [hset], by omega, by simp [he],
    ?_, hn⟩
  · intro v hv
    rw [hk] at hv
    simp at hv; exact hv.1
  · rw [hk]; exact List.nodup_range.filter _
  · intro v hvn
    rw [hv, getD_replicate _ _ _ _ hvn, he, hs, hr]
    simp only [Bool.false_eq_true, List.not_mem_nil, false_or, List.mem_filter, List.mem_range,
      decide_eq_true_eq, ne_eq, false_iff, not_and, not_not, and_imp]
    exact fun _ h => h
  · intro pre u post w h
    rw [he] at h; simp at h
  · intro u w hu h2
    rw [hs, hr] at hu
    simp at hu
    omega
  · intro v hv h1
    rw [hk]; simp [hv, h1]

/-- What both traversals establish: the blocks are the groups. -/
structure TravOk (g : Csc) (L : Nat) (G : Grouping) : Prop where
  perm : G.set.Perm (List.range g.n)
  num : G.ptr.length = G.num + 1
  last : lastPtr G.ptr = g.n
  blocks : Blocks g L G.set G.ptr
  ord : ∀ pre u post w, G.set = pre ++ u :: post → (g.col u).length = 2 → g.Dep u w → w ∈ pre

/-- When nothing waits any more, all nodes are listed. -/
theorem core_done (hg : g.WF) (hd : g.OneDiag) (hl : g.Lower) {R : Nat} {s : Trav}
    (hC : Core g R s) (hs : s.stack = []) (hr : s.roots = []) :
    s.cnt = g.n ∧ emitted s = s.set ∧ s.set.Perm (List.range g.n) := by
  have hk : known (emitted s) s = emitted s := by simp [known, hs, hr]
  have hall : ∀ k v, g.n - v ≤ k → v < g.n → v ∈ emitted s := by
    intro k
    induction k with
    | zero => intro v h1 h2; omega
    | succ k ih =>
      intro v h1 h2
      by_cases h : ∃ w, g.Dep v w
      · obtain ⟨w, hw⟩ := h
        have := hC.closed w (ih w (by have := Dep_lt hl hw; omega) (hg.dep_lt hw).2) v hw
        rwa [hk] at this
      · push Not at h
        have := hC.sinks v h2 (col_one_of_no_succ hd h2 h)
        rwa [hk] at this
  have hnd : (emitted s).Nodup := by have := hC.ti.nodup; rwa [hk] at this
  have hp : (emitted s).Perm (List.range g.n) := by
    rw [List.perm_ext_iff_of_nodup hnd List.nodup_range]
    intro v
    rw [List.mem_range]
    exact ⟨fun h => hC.ti.lt v (by rw [hk]; exact h), fun h => hall _ v (le_refl _) h⟩
  have h1 := hp.length_eq
  rw [emitted_length hC, List.length_range] at h1
  have h2 : emitted s = s.set := by
    unfold emitted
    rw [List.take_of_length_le]
    rw [hC.slen]; omega
  exact ⟨h1, h2, by rw [← h2]; exact hp⟩

theorem treeTraverse_wp (hg : g.WF) (hd : g.OneDiag) (hl : g.Lower) {B : Sp Nat} (hB : RowsOf g B)
    {L : Nat} (hL : 0 < L) : wp (treeTraverse L g.n g.p B) (TravOk g L) := by
  unfold treeTraverse
  rw [sinks_eq hg, ok_bind]
  simp only [wp_bind]
  refine wp_mono (whileF_wp (fun s : Trav => (∃ R, Core g R s ∧ Cur g L R s) ∧ s.stack = [])
    (fun s => g.n - s.cnt)
    (Q := fun s => (∃ R, Core g R s ∧ Cur g L R s) ∧ s.stack = [] ∧ s.roots = []) ?_ _ _
    (by simp) ?_) ?_
  · rintro s ⟨⟨R, h1, h2⟩, h3⟩
    rw [wp_ok]
    by_cases hr : s.roots = []
    · simp only [hr, List.isEmpty_nil, Bool.not_true, Bool.false_eq_true, if_false]
      exact ⟨⟨R, h1, h2⟩, h3, trivial⟩
    · have : (!s.roots.isEmpty) = true := by simp [hr]
      rw [this]
      simp only [if_true]
      have := lt_of_roots h1 hr
      refine ⟨by omega, wp_mono (treeRound_wp hg hd hl hB hL h1 h2 h3 hr) ?_⟩
      rintro s' ⟨k1, k2, k3⟩
      exact ⟨⟨k1, k2⟩, by omega⟩
  · refine ⟨⟨0, core_init rfl rfl rfl rfl rfl rfl, ?_⟩, rfl⟩
    refine ⟨by simp, ⟨rfl, ?_⟩, by simp [lastPtr], ?_, rfl, ?_⟩
    · intro j hj; simp at hj
    · intro x hx; simp [lastPtr, slice_self] at hx
    · constructor
      · simp [lastPtr]
      · intro h; simp at h
  · rintro s ⟨⟨R, h1, h2⟩, h3, h4⟩
    obtain ⟨k1, k2, k3⟩ := core_done hg hd hl h1 h3 h4
    rw [back_eq h2.ne, wp_ok]
    have hb := h2.blocks
    have hrt := h2.rt
    have hle := h2.le
    have hsm := h2.small
    have hnum := h1.num
    have hord := h1.ti.ord
    have hslen := h1.slen
    rw [k2] at hb hrt hord
    by_cases hc : lastPtr s.ptr ≠ s.cnt
    · rw [if_pos hc, if_neg (by simp [hnum]), wp_ok]
      refine ⟨k3, by simp [hnum], by dsimp only; rw [lastPtr_append, k1], ?_, hord⟩
      exact hb.push h2.ne (by omega) (by omega) hsm.1 hrt
    · have hpos := List.length_pos_of_ne_nil h2.ne
      rw [if_neg hc, if_pos (by omega), if_neg (by omega), wp_ok]
      exact ⟨k3, by dsimp only; omega, by dsimp only; omega, hb, hord⟩

end Verif.Group
