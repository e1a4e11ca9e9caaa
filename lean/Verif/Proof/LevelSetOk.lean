import Verif.Proof.LevelSet
import Verif.Proof.Paths

/-! Semantic package of a successful level-set computation. -/

namespace Verif.LevelSet
open Res Csc

variable {g : Csc}

/-- What a level set guarantees: a successful call of `build_levelSet_CSC`, and the other functions
that compute one.  The length of `ptr` is the only thing they differ in. -/
structure LevelOk (g : Csc) (L : Nat) (ptr set ntl : List Nat) : Prop where
  ptrLen : L < ptr.length
  setLen : set.length = g.n
  ntlLen : ntl.length = g.n
  lN : L ≤ g.n
  ptr0 : ptr.getD 0 0 = 0
  ptrL : ptr.getD L 0 = g.n
  strict : ∀ l, l < L → ptr.getD l 0 < ptr.getD (l + 1) 0
  perm : set.Perm (List.range g.n)
  depth : ∀ v, v < g.n → g.PathTo (ntl.getD v 0) v ∧ ¬ g.PathTo (ntl.getD v 0 + 1) v
  lvl : ∀ l k, l < L → ptr.getD l 0 ≤ k → k < ptr.getD (l + 1) 0 →
    ntl.getD (set.getD k 0) 0 = l
  noPath : ∀ v, ¬ g.PathTo L v
  ntlLt : ∀ v, v < g.n → ntl.getD v 0 < L
  top : 0 < g.n → 0 < L ∧ ∃ v, g.PathTo (L - 1) v
  beyond : ∀ l, L < l → ptr.getD l 0 = 0

/-- The block that contains a position. -/
theorem exists_block {ptr : List Nat} {L k : Nat} (h0 : ptr.getD 0 0 = 0)
    (hk : k < ptr.getD L 0) :
    ∃ m, m < L ∧ ptr.getD m 0 ≤ k ∧ k < ptr.getD (m + 1) 0 := by
  induction L with
  | zero => omega
  | succ m ih =>
    by_cases hkm : k < ptr.getD m 0
    · obtain ⟨m', h1, h2⟩ := ih hkm
      exact ⟨m', by omega, h2⟩
    · exact ⟨m, by omega, by omega, hk⟩

theorem levelOk_of_invB (hwf : g.WF) {s : St} (hi : InvB g s) (hL : s.curLevel ≤ g.n)
    (hall : ∀ v, v < g.n → v ∈ s.levelSet.take s.cnt) :
    LevelOk g s.curLevel s.levelPtr s.levelSet s.nodeToLevel := by
  have hno : ∀ v, ¬ g.PathTo s.curLevel v := fun v hv =>
    ((hi.memDone v).1 (hall v (hv.lt hwf))).2 hv
  have hperm : (s.levelSet.take s.cnt).Perm (List.range g.n) := by
    rw [List.perm_ext_iff_of_nodup hi.nodup List.nodup_range]
    intro v
    rw [List.mem_range]
    exact ⟨fun hv => ((hi.memDone v).1 hv).1, hall v⟩
  have hcnt : s.cnt = g.n := by
    have := hperm.length_eq
    simp at this
    have := hi.lenSet
    have := hi.cntLe
    omega
  have hpos : 0 < g.n → 0 < s.curLevel := by
    intro hn
    rcases Nat.eq_zero_or_pos s.curLevel with h | h
    · exact absurd (PathTo.nil hn) (h ▸ hno 0)
    · exact h
  refine { ptrLen := ?_, setLen := hi.lenSet, ntlLen := hi.lenLvl
           lN := ?_, ptr0 := hi.ptr0, ptrL := by rw [hi.ptrL, hcnt]
           strict := ?_, perm := ?_, depth := fun v hv => hi.ntl v (hall v hv)
           lvl := hi.lvl, noPath := hno, ntlLt := ?_, top := ?_, beyond := hi.beyond }
  · have := hi.lenPtr
    omega
  · exact hL
  · intro l hl
    obtain ⟨v, hv⟩ := hi.prev (by omega)
    obtain ⟨u, hu1, hu2⟩ := exists_exact_depth 0 v hv (by omega) (hno v) l (by omega)
    have hum := hall u (hu1.lt hwf)
    obtain ⟨k, hk, hke⟩ := List.mem_iff_getElem.1 hum
    simp at hk hke
    by_contra hc
    have hmono := hi.ptrMono l hl
    obtain ⟨m, hm1, hm2, hm3⟩ := exists_block hi.ptr0 (L := s.curLevel) (k := k)
      (by rw [hi.ptrL]; omega)
    have hlv := hi.lvl m k hm1 hm2 hm3
    have hgk : s.levelSet.getD k 0 = u := by
      rw [List.getD_eq_getElem?_getD, List.getElem?_eq_getElem (by omega)]; simpa using hke
    rw [hgk] at hlv
    have hn := hi.ntl u hum
    rw [hlv] at hn
    have hml : m = l := by
      by_contra hne
      rcases Nat.lt_or_ge m l with h1 | h1
      · exact hn.2 (hu1.le hwf (by omega))
      · exact hu2 (hn.1.le hwf (by omega))
    subst hml
    omega
  · have : s.levelSet.take s.cnt = s.levelSet := by
      rw [List.take_of_length_le]; rw [hi.lenSet]; omega
    rw [← this]; exact hperm
  · intro v hv
    by_contra hc
    exact hno v ((hi.ntl v (hall v hv)).1.le hwf (by omega))
  · intro hn
    exact ⟨hpos hn, hi.prev (hpos hn)⟩

theorem levelOk_of_inv (hwf : g.WF) {s : St} (hi : Inv g s)
    (hall : ∀ v, v < g.n → v ∈ s.levelSet.take s.cnt) :
    LevelOk g s.curLevel s.levelPtr s.levelSet s.nodeToLevel :=
  levelOk_of_invB hwf hi.toInvB (by rcases hi.lvlLt with h | h <;> omega) hall

theorem buildLevelSet_ok (hwf : g.WF) (hd : g.OneDiag) :
    ∃ o, buildLevelSet g.n g.p g.i = ok o ∧
      ((∃ L : Nat, o.ret = L ∧ LevelOk g L o.levelPtr o.levelSet o.nodeToLevel) ∨
       (o.ret = -1 ∧ ∃ v, g.PathTo (g.n - 1) v)) := by
  obtain ⟨o, ho, ⟨r, s⟩, hp, rfl⟩ := wp_iff.1 (buildLevelSet_spec hwf hd)
  refine ⟨_, ho, ?_⟩
  rcases hp with ⟨hr, hi, hall⟩ | ⟨hr, hv⟩
  · exact .inl ⟨s.curLevel, hr, levelOk_of_inv hwf hi hall⟩
  · exact .inr ⟨hr, hv⟩

/-- The sizes of the arrays of `build_levelSet_CSC`. -/
theorem buildLevelSet_full (hwf : g.WF) (hd : g.OneDiag) {o : Out} (ho : buildLevelSet g.n g.p g.i = ok o)
    {L : Nat} (hL : o.ret = L) : (L < g.n ∨ g.n = 0) ∧ o.levelPtr.length = g.n + 1 := by
  obtain ⟨o', ho', ⟨r, s⟩, hp, rfl⟩ := wp_iff.1 (buildLevelSet_spec hwf hd)
  rw [ho] at ho'
  obtain rfl := Res.ok.inj ho'
  dsimp only at hL ⊢
  rcases hp with ⟨hr, hi, hall⟩ | ⟨hr, hv⟩
  · dsimp only at hr hi hall
    have h1 := levelOk_of_inv hwf hi hall
    refine ⟨?_, hi.lenPtr⟩
    have h2 := hi.lvlLt
    have : s.curLevel = L := by omega
    have h3 : s.cnt ≤ g.n := hi.cntLe
    rcases h2 with h | h <;> omega
  · dsimp only at hr
    omega

namespace LevelOk

variable {L : Nat} {ptr set ntl : List Nat}

theorem get_ptr (h : LevelOk g L ptr set ntl) {l : Nat} (hl : l ≤ L) :
    ptr[l]? = some (ptr.getD l 0) := by
  have : l < ptr.length := by have := h.ptrLen; omega
  simp [this]

theorem get_set (h : LevelOk g L ptr set ntl) {k : Nat} (hk : k < g.n) :
    set[k]? = some (set.getD k 0) := by
  have : k < set.length := by rw [h.setLen]; omega
  simp [this]

theorem get_ntl (h : LevelOk g L ptr set ntl) {k : Nat} (hk : k < g.n) :
    ntl[k]? = some (ntl.getD k 0) := by
  have : k < ntl.length := by rw [h.ntlLen]; omega
  simp [this]

theorem isDepth (h : LevelOk g L ptr set ntl) (hwf : g.WF) {v : Nat} (hv : v < g.n) :
    g.IsDepth v (ntl.getD v 0) := by
  refine ⟨(h.depth v hv).1, fun m hm => ?_⟩
  by_contra hc
  exact (h.depth v hv).2 (hm.le hwf (by omega))

/-- Dependences go to a strictly later level. -/
theorem dep_lt (h : LevelOk g L ptr set ntl) (hwf : g.WF) {u v : Nat} (hd : g.Dep u v) :
    ntl.getD u 0 < ntl.getD v 0 := by
  obtain ⟨hu, hv⟩ := hwf.dep_lt hd
  have := (h.isDepth hwf hv).2 _ (.snoc (h.depth u hu).1 hd)
  omega

theorem set_lt (h : LevelOk g L ptr set ntl) {k : Nat} (hk : k < g.n) : set.getD k 0 < g.n := by
  have : set.getD k 0 ∈ set := by
    have hk' : k < set.length := by rw [h.setLen]; exact hk
    rw [List.getD_eq_getElem?_getD, List.getElem?_eq_getElem hk']
    exact List.getElem_mem hk'
  exact List.mem_range.1 (h.perm.mem_iff.1 this)

theorem ptr_mono (h : LevelOk g L ptr set ntl) {a b : Nat} (hab : a ≤ b) (hb : b ≤ L) :
    ptr.getD a 0 ≤ ptr.getD b 0 := by
  induction b with
  | zero => have : a = 0 := by omega
            subst this; exact le_refl _
  | succ b ih =>
    rcases Nat.lt_or_ge a (b + 1) with h1 | h1
    · exact le_trans (ih (by omega) (by omega)) (le_of_lt (h.strict b (by omega)))
    · have : a = b + 1 := by omega
      subst this; exact le_refl _

theorem ptr_le (h : LevelOk g L ptr set ntl) {a : Nat} (ha : a ≤ L) : ptr.getD a 0 ≤ g.n := by
  rw [← h.ptrL]; exact h.ptr_mono ha (le_refl _)

/-- The position of a node lies in the block of its level. -/
theorem pos_block (h : LevelOk g L ptr set ntl) {k : Nat} (hk : k < g.n) :
    ntl.getD (set.getD k 0) 0 < L ∧ ptr.getD (ntl.getD (set.getD k 0) 0) 0 ≤ k ∧
      k < ptr.getD (ntl.getD (set.getD k 0) 0 + 1) 0 := by
  obtain ⟨m, h1, h2, h3⟩ := exists_block h.ptr0 (L := L) (k := k) (by rw [h.ptrL]; exact hk)
  rw [h.lvl m k h1 h2 h3]
  exact ⟨h1, h2, h3⟩

theorem exists_pos (h : LevelOk g L ptr set ntl) {v : Nat} (hv : v < g.n) :
    ∃ k, k < g.n ∧ set.getD k 0 = v := by
  have : v ∈ set := h.perm.mem_iff.2 (List.mem_range.2 hv)
  obtain ⟨k, hk, hke⟩ := List.mem_iff_getElem.1 this
  refine ⟨k, by rw [← h.setLen]; exact hk, ?_⟩
  rw [List.getD_eq_getElem?_getD, List.getElem?_eq_getElem hk]; exact hke

end LevelOk
end Verif.LevelSet
