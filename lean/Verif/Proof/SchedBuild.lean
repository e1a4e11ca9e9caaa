import Verif.Proof.Slices

/-! # Building a schedule coarse level by coarse level -/

namespace Verif

/-- A coarse level: `ns` are its nodes, `b[0..m]` the boundaries of its parts; dependent nodes are
in the same part, and in order where `S` holds. -/
structure LevelPartsOk (dep S : Nat → Nat → Prop) (b ns : List Nat) (m : Nat) : Prop where
  ptr : PtrOk b m ns.length
  len : b.length = m + 1
  order : ∀ u v, dep u v → ∀ k k' : Nat, ns[k]? = some u → ns[k']? = some v →
    ∃ q, q < m ∧ b.getD q 0 ≤ k ∧ k < b.getD (q + 1) 0 ∧ b.getD q 0 ≤ k' ∧
      k' < b.getD (q + 1) 0 ∧ (S u v → k < k')

/-- A schedule under construction: `w` coarse levels with the nodes `N`, all well formed; no
dependence from outside into it is checked here. -/
structure Built (dep S : Nat → Nat → Prop) (w parts : Nat) (s : Sched) : Prop where
  lv : PtrOk s.levelPtr w parts
  lvLen : s.levelPtr.length = w + 1
  pt : PtrOk s.partPtr parts s.nodes.length
  ptLen : s.partPtr.length = parts + 1
  resp : ∀ u v, dep u v → ∀ (l q k l' q' k' : Nat),
    l < w → InBlock s.levelPtr l q → InBlock s.partPtr q k → s.nodes[k]? = some u →
    l' < w → InBlock s.levelPtr l' q' → InBlock s.partPtr q' k' → s.nodes[k']? = some v →
    l < l' ∨ (l = l' ∧ q = q' ∧ (S u v → k < k'))

theorem Built.empty (dep S : Nat → Nat → Prop) (L : Nat) : Built dep S 0 0 ⟨L, [0], [0], []⟩ where
  lv := ⟨rfl, rfl, by intro b hb; omega⟩
  lvLen := rfl
  pt := ⟨rfl, rfl, by intro b hb; omega⟩
  ptLen := rfl
  resp := by intro u v _ l q k l' q' k' h; omega

/-- The schedule with one more coarse level. -/
def Sched.push (s : Sched) (parts : Nat) (b ns : List Nat) (m : Nat) : Sched where
  levels := s.levels
  levelPtr := s.levelPtr ++ [parts + m]
  partPtr := s.partPtr ++ b.tail.map (· + s.nodes.length)
  nodes := s.nodes ++ ns

theorem getD_append_left {α : Type _} (l₁ l₂ : List α) (d : α) {k : Nat} (h : k < l₁.length) :
    (l₁ ++ l₂).getD k d = l₁.getD k d := by
  simp [List.getD_eq_getElem?_getD, List.getElem?_append_left h]

theorem getD_append_right {α : Type _} (l₁ l₂ : List α) (d : α) {k : Nat} (h : l₁.length ≤ k) :
    (l₁ ++ l₂).getD k d = l₂.getD (k - l₁.length) d := by
  simp [List.getD_eq_getElem?_getD, List.getElem?_append_right h]

section
variable {dep S : Nat → Nat → Prop} {w parts m : Nat} {s : Sched} {b ns : List Nat}

theorem push_part_left (hB : Built dep S w parts s) {q : Nat} (hq : q ≤ parts) :
    (s.push parts b ns m).partPtr.getD q 0 = s.partPtr.getD q 0 := by
  unfold Sched.push
  rw [getD_append_left _ _ _ (by rw [hB.ptLen]; omega)]

theorem push_part_right (hB : Built dep S w parts s) (hl : b.length = m + 1) (h0 : b.getD 0 0 = 0)
    {q : Nat} (hq : q ≤ m) :
    (s.push parts b ns m).partPtr.getD (parts + q) 0 = s.nodes.length + b.getD q 0 := by
  by_cases hq0 : q = 0
  · subst hq0
    rw [Nat.add_zero, push_part_left hB (le_refl _), hB.pt.dlast, h0, Nat.add_zero]
  · unfold Sched.push
    rw [getD_append_right _ _ _ (by rw [hB.ptLen]; omega), hB.ptLen]
    cases b with
    | nil => simp at hl
    | cons x b =>
      simp only [List.tail_cons, List.length_cons] at hl ⊢
      have e : parts + q - (parts + 1) = q - 1 := by omega
      rw [e]
      obtain ⟨q, rfl⟩ : ∃ q', q = q' + 1 := ⟨q - 1, by omega⟩
      simp only [Nat.add_sub_cancel, List.getD_cons_succ]
      rw [List.getD_eq_getElem?_getD, List.getElem?_map, List.getD_eq_getElem?_getD,
        List.getElem?_eq_getElem (by omega)]
      simp; omega

theorem push_lv_left (hB : Built dep S w parts s) {l : Nat} (hq : l ≤ w) :
    (s.push parts b ns m).levelPtr.getD l 0 = s.levelPtr.getD l 0 := by
  unfold Sched.push
  rw [getD_append_left _ _ _ (by rw [hB.lvLen]; omega)]

theorem push_lv_right (hB : Built dep S w parts s) :
    (s.push parts b ns m).levelPtr.getD (w + 1) 0 = parts + m := by
  unfold Sched.push
  rw [getD_append_right _ _ _ (by rw [hB.lvLen]), hB.lvLen]
  simp

theorem push_lv_ok (hB : Built dep S w parts s) :
    PtrOk (s.push parts b ns m).levelPtr (w + 1) (parts + m) := by
  refine PtrOk.mk' ?_ ?_ (push_lv_right hB) ?_
  · show w + 1 < (s.levelPtr ++ [_]).length
    simp [hB.lvLen]
  · rw [push_lv_left hB (by omega), hB.lv.d0]
  · intro l hl
    rcases Nat.lt_or_ge l w with h | h
    · rw [push_lv_left hB (by omega), push_lv_left hB (by omega)]
      exact hB.lv.dmono h
    · have : l = w := by omega
      subst this
      rw [push_lv_left hB (by omega), push_lv_right hB, hB.lv.dlast]
      omega

theorem push_part_ok (hB : Built dep S w parts s) (hL : LevelPartsOk dep S b ns m) :
    PtrOk (s.push parts b ns m).partPtr (parts + m) (s.nodes.length + ns.length) := by
  refine PtrOk.mk' ?_ ?_ ?_ ?_
  · show parts + m < (s.partPtr ++ _).length
    simp [hB.ptLen, hL.len]
  · rw [push_part_left hB (by omega), hB.pt.d0]
  · rw [push_part_right hB hL.len hL.ptr.d0 (le_refl _), hL.ptr.dlast]
  · intro q hq
    rcases Nat.lt_or_ge q parts with h | h
    · rw [push_part_left hB (by omega), push_part_left hB (by omega)]
      exact hB.pt.dmono h
    · obtain ⟨q, rfl⟩ : ∃ q', q = parts + q' := ⟨q - parts, by omega⟩
      rw [Nat.add_assoc, push_part_right hB hL.len hL.ptr.d0 (by omega),
        push_part_right hB hL.len hL.ptr.d0 (by omega)]
      have := hL.ptr.dmono (b := q) (by omega)
      omega

/-- Where an entry of the longer schedule is: in an old coarse level or in the new one. -/
theorem push_cases (hB : Built dep S w parts s) (hL : LevelPartsOk dep S b ns m) {l q k v : Nat}
    (hl : l < w + 1) (h1 : InBlock (s.push parts b ns m).levelPtr l q)
    (h2 : InBlock (s.push parts b ns m).partPtr q k) (h3 : (s.push parts b ns m).nodes[k]? = some v) :
    (l < w ∧ InBlock s.levelPtr l q ∧ InBlock s.partPtr q k ∧ s.nodes[k]? = some v) ∨
    (l = w ∧ ∃ q' k', q = parts + q' ∧ k = s.nodes.length + k' ∧ q' < m ∧
      b.getD q' 0 ≤ k' ∧ k' < b.getD (q' + 1) 0 ∧ ns[k']? = some v) := by
  rw [(push_lv_ok hB).inBlock_iff hl] at h1
  rcases Nat.lt_or_ge l w with h | h
  · left
    rw [push_lv_left hB (by omega), push_lv_left hB (by omega)] at h1
    have hq : q < parts := by
      have := hB.lv.dle (b := l + 1) (by omega)
      omega
    rw [(push_part_ok hB hL).inBlock_iff (by omega), push_part_left hB (by omega),
      push_part_left hB (by omega)] at h2
    refine ⟨h, (hB.lv.inBlock_iff h).2 h1, (hB.pt.inBlock_iff hq).2 h2, ?_⟩
    have hk := hB.pt.dle (b := q + 1) (by omega)
    unfold Sched.push at h3
    rwa [List.getElem?_append_left (by omega)] at h3
  · right
    have : l = w := by omega
    subst this
    rw [push_lv_left hB (by omega), push_lv_right hB, hB.lv.dlast] at h1
    obtain ⟨q', rfl⟩ : ∃ q', q = parts + q' := ⟨q - parts, by omega⟩
    rw [(push_part_ok hB hL).inBlock_iff (by omega), Nat.add_assoc,
      push_part_right hB hL.len hL.ptr.d0 (by omega),
      push_part_right hB hL.len hL.ptr.d0 (by omega)] at h2
    obtain ⟨k', rfl⟩ : ∃ k', k = s.nodes.length + k' := ⟨k - s.nodes.length, by omega⟩
    refine ⟨rfl, q', k', rfl, rfl, by omega, by omega, by omega, ?_⟩
    unfold Sched.push at h3
    rwa [List.getElem?_append_right (by omega), Nat.add_sub_cancel_left] at h3

/-- Adding a coarse level none of whose nodes is needed by the earlier ones. -/
theorem Built.push (hB : Built dep S w parts s) (hL : LevelPartsOk dep S b ns m)
    (hno : ∀ u v, dep u v → u ∈ ns → v ∉ s.nodes) :
    Built dep S (w + 1) (parts + m) (s.push parts b ns m) where
  lv := push_lv_ok hB
  lvLen := by show (s.levelPtr ++ [_]).length = _; simp [hB.lvLen]
  pt := by
    have : (s.push parts b ns m).nodes.length = s.nodes.length + ns.length := by
      show (s.nodes ++ ns).length = _; simp
    rw [this]; exact push_part_ok hB hL
  ptLen := by show (s.partPtr ++ _).length = _; simp [hB.ptLen, hL.len]; omega
  resp := by
    intro u v hd l q k l' q' k' a1 a2 a3 a4 b1 b2 b3 b4
    rcases push_cases hB hL a1 a2 a3 a4 with ⟨c1, c2, c3, c4⟩ | ⟨rfl, x, y, rfl, rfl, c2, c3, c4, c5⟩
    · rcases push_cases hB hL b1 b2 b3 b4 with ⟨d1, d2, d3, d4⟩ | ⟨d1, _⟩
      · exact hB.resp u v hd l q k l' q' k' c1 c2 c3 c4 d1 d2 d3 d4
      · left; omega
    · rcases push_cases hB hL b1 b2 b3 b4 with
        ⟨d1, d2, d3, d4⟩ | ⟨rfl, x', y', rfl, rfl, d2, d3, d4, d5⟩
      · exact absurd (List.mem_of_getElem? d4) (hno u v hd (List.mem_of_getElem? c5))
      · right
        obtain ⟨z, e1, e2, e3, e4, e5, e6⟩ := hL.order u v hd y y' c5 d5
        have h1 := hL.ptr.block_unique c2 e1 c3 c4 e2 e3
        have h2 := hL.ptr.block_unique d2 e1 d3 d4 e4 e5
        exact ⟨rfl, by omega, fun hS => by have := e6 hS; omega⟩

/-- A schedule valid for some dependences is valid for fewer of them. -/
theorem Sched.Valid.mono {n : Nat} {D D' : Nat → Nat → Prop} {s : Sched} (h : s.Valid n D)
    (hs : ∀ u v, D' u v → D u v) : s.Valid n D' :=
  ⟨h.ptrs, h.complete, fun u v huv => h.respects u v (hs u v huv)⟩

/-- A finished schedule. -/
theorem Built.valid (hB : Built dep S w parts s) (hw : s.levels = w) {n : Nat}
    (hp : s.nodes.Perm (List.range n)) : s.Valid n (fun u v => dep u v ∧ S u v) := by
  have hlen : s.nodes.length = n := by simpa using hp.length_eq
  refine ⟨⟨parts, hw ▸ hB.lv, hlen ▸ hB.pt⟩, ?_, ?_⟩
  · unfold Sched.Complete
    rwa [List.take_of_length_le (by omega)]
  · rintro u v ⟨hd, hS⟩ l q k l' q' k' ⟨a1, a2, a3, a4⟩ ⟨b1, b2, b3, b4⟩
    rcases hB.resp u v hd l q k l' q' k' (by omega) a2 a3 a4 (by omega) b2 b3 b4 with h | ⟨h1, h2, h3⟩
    · exact .inl h
    · exact .inr ⟨h1, h2, h3 hS⟩

/-- Where a finished schedule puts dependent nodes, whether or not they are in order. -/
theorem Built.together (hB : Built dep S w parts s) (hw : s.levels = w) : s.Together dep := by
  rintro u v hd l q k l' q' k' ⟨a1, a2, a3, a4⟩ ⟨b1, b2, b3, b4⟩
  rcases hB.resp u v hd l q k l' q' k' (by omega) a2 a3 a4 (by omega) b2 b3 b4 with h | ⟨h1, h2, _⟩
  · exact .inl h
  · exact .inr ⟨h1, h2⟩

end
end Verif
