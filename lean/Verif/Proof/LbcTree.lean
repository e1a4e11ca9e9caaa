import Verif.Proof.LbcTreeHeight
import Verif.Proof.PostSplit2
import Verif.Proof.TreeDag
import Verif.Proof.TreeCost
import Verif.Proof.LbcSeqAll
import Verif.Proof.Pipeline

/-! # LBC for forests -/

namespace Verif.LbcTree
open Res Lbc LevelSet Hdagg Verif.Tree Verif.Split

variable {n L cnt : Nat} {t : List Int} {K : Type}

/-! ### The tree of a window -/

/-- The forest of the window `lo .. hi - 1`. -/
structure TmpOk (n : Nat) (t : List Int) (lev : List Nat) (lo hi : Nat) (tmp : List Int) : Prop where
  len : tmp.length = n
  par : ∀ v p, v < n → (parentOf tmp v = some p ↔
    lo ≤ lev.getD v 0 ∧ lev.getD v 0 < hi ∧ parentOf t v = some p ∧ lo ≤ lev.getD p 0 ∧ lev.getD p 0 < hi)
  ins : ∀ v, v < n → (tmp.getD v (-1) ≠ -2 ↔ lo ≤ lev.getD v 0 ∧ lev.getD v 0 < hi)

/-- The entry of a node. -/
def entry (t : List Int) (lev : List Nat) (lo hi v : Nat) : Int :=
  match parentOf t v with
  | none => -1
  | some p => if lev.getD p 0 < hi ∧ lo ≤ lev.getD p 0 then (p : Int) else -1

theorem windowNode_eq (hl : t.length = n) (hf : Forest n (parentOf t)) {debug : Bool} {lev : List Nat}
    (hlev : lev.length = n) (hlt : ∀ v, v < n → lev.getD v 0 < L) (hL : L < n) {nodeCost : List K}
    (hc : nodeCost.length = n) {lo hi x : Nat} (hhi : hi ≤ L + 1) (hx : x < n) {tmp : List Int}
    (ht : tmp.length = n) :
    windowNode debug n L t lev nodeCost lo hi x tmp = ok (tmp.set x (entry t lev lo hi x)) := by
  unfold windowNode
  rw [rd_tree (by omega), ok_bind]
  unfold entry
  rcases parent_cases (t := t) x with ⟨e1, e2⟩ | ⟨p, e1, e2⟩
  · rw [if_neg (by omega), ok_bind, if_neg (by omega), if_neg (by omega), wr_eq (by omega), e2]
  · have hp := hf x p hx e2
    have := hlt p hp.2
    rw [e1, if_pos (by omega), Verif.Tree.rdZ_nat, rd_getD 0 (by omega), ok_bind, if_neg (by omega), e2]
    dsimp only
    split
    · rw [rd_eq (by omega), ok_bind, wr_eq (by omega)]
    · rw [wr_eq (by omega)]

theorem windowTree_wp (hl : t.length = n) (hf : Forest n (parentOf t)) {debug : Bool} {V : Wins}
    (hV : LevelOk (treeCsc n t) L V.levelPtr V.levelSet V.node2Level) (hL : L < n)
    (hlong : L + 1 < V.levelPtr.length)
    {nodeCost levelCost : List K} (hc : nodeCost.length = n) {lo hi : Nat} (hlo : lo < L) (hlh : lo < hi)
    (hhi : hi ≤ L + 1) :
    wp (windowTree debug true n L t V nodeCost levelCost lo hi) (TmpOk n t V.node2Level lo hi) := by
  have hover : windowTree debug true n L t V nodeCost levelCost lo hi
      = overLevels V.levelPtr V.levelSet lo hi (windowNode debug n L t V.node2Level nodeCost lo hi)
        (List.replicate n (-2)) := rfl
  have hlev : V.node2Level.length = n := hV.ntlLen
  rw [hover, overLevels_min hV hlong (by omega) (by omega) hhi]
  have hmem := LevelOk.mem_win hV (lb := lo) (ub := min hi L) (by omega) (by omega)
  generalize win V.levelPtr V.levelSet lo (min hi L) = W at hmem
  have hmem : ∀ v, v ∈ W ↔ v < n ∧ lo ≤ V.node2Level.getD v 0 ∧ V.node2Level.getD v 0 < hi := by
    intro v
    rw [hmem]
    constructor
    · rintro ⟨a, b, c⟩
      exact ⟨a, b, by omega⟩
    · rintro ⟨a, b, c⟩
      have := hV.ntlLt v a
      exact ⟨a, b, by omega⟩
  have key := forEach_wp (f := windowNode debug n L t V.node2Level nodeCost lo hi)
    (fun pre (tmp : List Int) => tmp.length = n ∧ ∀ v, v < n → tmp.getD v (-1)
      = if v ∈ pre then entry t V.node2Level lo hi v else -2) W [] (List.replicate n (-2)) ⟨by simp, ?_⟩ ?_
  · refine wp_mono key ?_
    rintro tmp ⟨h1, h2⟩
    rw [List.nil_append] at h2
    have hent : ∀ v, entry t V.node2Level lo hi v ≠ -2 := by
      intro v
      unfold entry
      split
      · omega
      · split <;> omega
    refine ⟨h1, ?_, ?_⟩
    · intro v p hv
      rw [parentOf_some, h2 v hv]
      by_cases hW : v ∈ W
      · rw [if_pos hW]
        have hW' := (hmem v).1 hW
        unfold entry
        cases hp : parentOf t v with
        | none =>
          dsimp only
          constructor
          · intro h; omega
          · rintro ⟨_, _, h, _⟩; cases h
        | some q =>
          dsimp only
          constructor
          · intro h
            split at h
            · rename_i hq
              obtain rfl : q = p := by omega
              exact ⟨hW'.2.1, hW'.2.2, rfl, hq.2, hq.1⟩
            · omega
          · rintro ⟨_, _, h, h3, h4⟩
            cases h
            rw [if_pos ⟨h4, h3⟩]
      · rw [if_neg hW]
        constructor
        · intro h; omega
        · rintro ⟨a, b, _⟩
          exact absurd ((hmem v).2 ⟨hv, a, b⟩) hW
    · intro v hv
      rw [h2 v hv]
      have := hmem v
      split
      · rename_i hW
        exact ⟨fun _ => (this.1 hW).2, fun _ => hent v⟩
      · rename_i hW
        exact ⟨fun h => absurd rfl h, fun h => absurd (this.2 ⟨hv, h⟩) hW⟩
  · intro v hv
    rw [getD_replicate _ _ _ _ hv]; simp
  · rintro p a q tmp he ⟨h1, h2⟩
    rw [List.nil_append] at he
    have ha := (hmem a).1 (by rw [he]; simp)
    rw [windowNode_eq hl hf hlev hV.ntlLt hL hc hhi ha.1 h1, wp_ok]
    refine ⟨by simpa using h1, ?_⟩
    intro v hv
    rw [getD_set]
    by_cases hva : v = a
    · subst hva
      rw [if_pos ⟨rfl, by omega⟩, if_pos (by simp)]
    · rw [if_neg (by omega), h2 v hv]
      simp only [List.mem_append, List.mem_singleton, hva, or_false]

theorem TmpOk.forest {lev : List Nat} {lo hi : Nat} {tmp : List Int} (hf : Forest n (parentOf t))
    (h : TmpOk n t lev lo hi tmp) : Forest n (parentOf tmp) :=
  fun j p hj hp => hf j p hj ((h.par j p hj).1 hp).2.2.1

theorem TmpOk.closed {lev : List Nat} {lo hi : Nat} {tmp : List Int} (hf : Forest n (parentOf t))
    (h : TmpOk n t lev lo hi tmp) : Closed n tmp := by
  intro c p hc
  have h1 := (h.par c p hc.1).1 hc.2
  have h2 := (hf c p hc.1 h1.2.2.1).2
  exact ⟨h2, (h.ins p h2).2 h1.2.2.2⟩

/-! ### The parts of a window -/

theorem SplitOk.winParts (hf : Forest n (parentOf t)) {V : Wins} (h : WinsOk (treeCsc n t) L cnt V) {l : Nat}
    (hl : l < cnt) {tmp : List Int} (ht : TmpOk n t V.node2Level (V.lo l) (V.lo (l + 1)) tmp)
    {parts : List (List Nat)} (hs : SplitOk n tmp parts) :
    WinParts (treeCsc n t).Dep (V.nodes L l) parts := by
  have hmem := h.mem_nodes hl
  refine ⟨?_, ?_⟩
  · unfold Wins.nodes at hmem ⊢
    rw [List.perm_ext_iff_of_nodup hs.nodup (LevelOk.win_nodup h.lvl _ _)]
    intro v
    rw [hs.mem, hmem]
    constructor
    · rintro ⟨a, b⟩
      exact ⟨a, (ht.ins v a).1 b⟩
    · rintro ⟨a, b⟩
      exact ⟨a, (ht.ins v a).2 b⟩
  · intro u v hd hu hv
    have hc := (treeCsc_dep hf).1 hd
    have hu' := (hmem u).1 hu
    have hv' := (hmem v).1 hv
    have hc' : parentOf tmp u = some v := (ht.par u v hc.1).2 ⟨hu'.2.1, hu'.2.2, hc.2, hv'.2⟩
    obtain ⟨q, hq, huq⟩ := List.mem_flatten.1 ((hs.mem u).2 ⟨hc.1, (ht.ins u hc.1).2 hu'.2⟩)
    obtain ⟨q', r, rfl, hr, hall⟩ := hs.trees q hq
    rcases List.mem_append.1 huq with huq | huq
    · obtain ⟨p, hp, hsub⟩ := hall u huq
      rw [hc'] at hp
      cases hp
      exact ⟨_, hq, hsub⟩
    · obtain rfl : u = r := by simpa using huq
      rw [hr] at hc'
      cases hc'

/-- Disjoint lists that all meet a list are not more than its elements. -/
theorem length_le_of_meet {parts : List (List Nat)} : ∀ {l : List Nat}, parts.flatten.Nodup →
    (∀ q ∈ parts, ∃ x ∈ q, x ∈ l) → parts.length ≤ l.length := by
  induction parts with
  | nil => intro l _ _; simp
  | cons q ps ih =>
    intro l hn h
    obtain ⟨x, hxq, hxl⟩ := h q (by simp)
    rw [List.flatten_cons, List.nodup_append] at hn
    have := ih (l := l.erase x) hn.2.1 (by
      intro q' hq'
      obtain ⟨y, hy, hyl⟩ := h q' (by simp [hq'])
      refine ⟨y, hy, (List.mem_erase_of_ne ?_).2 hyl⟩
      rintro rfl
      exact hn.2.2 y hxq y (List.mem_flatten.2 ⟨q', hq', hy⟩) rfl)
    rw [List.length_erase_of_mem hxl] at this
    have := List.length_pos_of_mem hxl
    simp only [List.length_cons]
    omega

/-- A node that is not in the first level has a child in the level before. -/
theorem child_below {V : Wins} (hf : Forest n (parentOf t))
    (h : LevelOk (treeCsc n t) L V.levelPtr V.levelSet V.node2Level) {v k : Nat} (hv : v < n)
    (hk : V.node2Level.getD v 0 = k + 1) :
    ∃ c, ChildOf n (parentOf t) c v ∧ V.node2Level.getD c 0 = k := by
  have hd := h.depth v hv
  rw [hk] at hd
  obtain ⟨hp, hno⟩ := hd
  cases hp with
  | snoc hpc hdep =>
    rename_i c
    have hc := (treeCsc_dep hf).1 hdep
    refine ⟨c, hc, ?_⟩
    have h2 := h.depth c hc.1
    have h3 := LevelOk.dep_lt (treeCsc_wf hf) h hdep
    by_contra hne
    have hlt : V.node2Level.getD c 0 < k := by omega
    have : (treeCsc n t).PathTo (V.node2Level.getD c 0 + 1) c := by
      have hshort : ∀ m k v, (treeCsc n t).PathTo (m + k) v → (treeCsc n t).PathTo k v := by
        intro m k v hp
        rw [treeCsc_path hf] at hp ⊢
        exact hp.shorten hf (by omega)
      obtain ⟨m, hm⟩ : ∃ m, k = m + (V.node2Level.getD c 0 + 1) := ⟨k - (V.node2Level.getD c 0 + 1), by omega⟩
      exact hshort m _ c (by rw [← hm]; exact hpc)
    exact h2.2 this

theorem SplitOk.leaves (hf : Forest n (parentOf t)) {V : Wins} (h : WinsOk (treeCsc n t) L cnt V) {l : Nat}
    (hl : l < cnt) {tmp : List Int} (ht : TmpOk n t V.node2Level (V.lo l) (V.lo (l + 1)) tmp)
    {parts : List (List Nat)} (hs : SplitOk n tmp parts) : parts.length ≤ (V.leaves l).length := by
  obtain ⟨h1, h2, h3⟩ := h.lo_spec hl
  refine length_le_of_meet hs.nodup ?_
  intro q hq
  have hdown : ∀ k x, x ∈ q → V.node2Level.getD x 0 = V.lo l + k → ∃ y ∈ q, V.node2Level.getD y 0 = V.lo l := by
    intro k
    induction k with
    | zero => intro x hx hk; exact ⟨x, hx, hk⟩
    | succ k ih =>
      intro x hx hk
      have hxn := (hs.mem x).1 (List.mem_flatten.2 ⟨q, hq, hx⟩)
      have hxi := (ht.ins x hxn.1).1 hxn.2
      obtain ⟨c, hc, hck⟩ := child_below hf h.lvl hxn.1 (k := V.lo l + k) (by omega)
      have hc' : ChildOf n (parentOf tmp) c x :=
        ⟨hc.1, (ht.par c x hc.1).2 ⟨by omega, by omega, hc.2, hxi⟩⟩
      exact ih c ((hs.closed hq hc').2 hx) hck
  obtain ⟨q', r, hq', _⟩ := hs.trees q hq
  have hr : r ∈ q := by rw [hq']; simp
  have hrn := (hs.mem r).1 (List.mem_flatten.2 ⟨q, hq, hr⟩)
  have hri := (ht.ins r hrn.1).1 hrn.2
  obtain ⟨y, hy, hyl⟩ := hdown (V.node2Level.getD r 0 - V.lo l) r hr (by omega)
  refine ⟨y, hy, ?_⟩
  have hyn := (hs.mem y).1 (List.mem_flatten.2 ⟨q, hq, hy⟩)
  unfold Wins.leaves
  rw [LevelOk.mem_win h.lvl (by omega) (by omega)]
  exact ⟨hyn.1, by omega, by omega⟩

/-! ### One window -/

section
variable [Add K] [LT K] [DecidableLT K]

/-- The arrays that are used again. -/
structure StOk (n : Nat) (s : St K) : Prop where
  ptr : s.childPtr.length = n + 1
  no : s.childNo.length = n
  cost : s.newOutCost.length = n

theorem window_wp (hl : t.length = n) (hf : Forest n (parentOf t)) {V : Wins} (h : WinsOk (treeCsc n t) L cnt V)
    {P : Params K} (hsort : ∀ l, (P.sort l).Perm l) {nodeCost levelCost : List K} (hc : nodeCost.length = n)
    (zero : K) {l : Nat} (hlc : l < cnt) {s : St K} (hs : StOk n s) {p : Nat}
    (hE : EmInv (treeCsc n t) L V l p s.emit)
    (hp : ∀ m, m ≤ (V.leaves l).length → m ≤ V.sizes.getD l 0 → p + m < n) :
    wp (window P true n L t V nodeCost levelCost zero l s) (fun s' => StOk n s' ∧
      ∃ m, m ≤ (V.leaves l).length ∧ m ≤ V.sizes.getD l 0 ∧ EmInv (treeCsc n t) L V (l + 1) (p + m) s'.emit) := by
  obtain ⟨h1, h2, h3⟩ := h.lo_spec hlc
  have hO := h.lvl
  have hLn : L < n := h.lt
  have hl' : l < V.sizes.length := by rw [h.slen]; exact hlc
  have hsz : 1 ≤ V.sizes.getD l 0 := h.spos _ (List.mem_of_getElem? (getElem?_getD 0 hl'))
  unfold window
  rw [rd_getD 0 hl', ok_bind, bounds_eq h.toWinsCore hlc, ok_bind]
  dsimp only
  rw [wp_bind]
  refine wp_mono (windowTree_wp hl hf hO hLn h.long hc h1 h2 h3) ?_
  intro tmp ht
  have hft := ht.forest hf
  rw [wp_bind]
  refine wp_mono (populateChildren_wp ht.len hft hs.ptr hs.no) ?_
  rintro ⟨ptr, no, cnts⟩ ⟨k1, k2, k3⟩
  dsimp only at k1 k2 k3 ⊢
  rw [if_neg (by omega), wp_bind]
  have hcost : nodeCost = (List.range n).map (fun i => nodeCost.getD i zero) := by
    refine List.ext_getElem? (fun i => ?_)
    rcases Nat.lt_or_ge i n with hi | hi
    · rw [List.getElem?_map, List.getElem?_range hi, Option.map_some]
      exact getElem?_getD zero (by omega)
    · rw [List.getElem?_eq_none (by omega), List.getElem?_eq_none (by simpa using hi)]
  have hrep : List.replicate n zero = (List.range n).map (fun _ => zero) := by
    rw [List.map_const']; simp
  refine wp_mono (postOrderSplit_wp (debug := P.debug) ht.len hft (ht.closed hf) hcost k1
    (nChild := cnts.map Int.ofNat) ⟨by simpa using k2, ?_⟩ (num := V.sizes.getD l 0) (by omega) hrep
    (lab := List.replicate n 0) (by simp)) ?_
  · intro v hv
    rw [← k3 v hv]
    have : v < cnts.length := by omega
    rw [List.getD_eq_getElem?_getD, List.getD_eq_getElem?_getD, List.getElem?_map, List.getElem?_eq_getElem this]
    rfl
  rintro ⟨parts, out, lab⟩ ⟨a1, -, a3, a4⟩
  dsimp only at a1 a3 a4 ⊢
  have hW := SplitOk.winParts hf h hlc ht a1
  have hlv := SplitOk.leaves hf h hlc ht a1
  have hleaves : (V.leaves l).length ≤ n := by
    unfold Wins.leaves
    rw [win_length hO (by omega)]
    have : V.levelPtr.getD (V.lo l + 1) 0 ≤ n := hO.ptr_le (a := V.lo l + 1) (by omega)
    omega
  rw [wp_bind]
  refine wp_mono (pack_wp (g := treeCsc n t) (P := { P with innerParts := (V.sizes.getD l 0 : Int) }) (n := n)
    (bp := true) (by dsimp only; omega) hsort hl' hsz a3 hs.cost hlv hleaves hW) ?_
  rintro ⟨o, nc, merged⟩ ⟨r1, hG⟩
  dsimp only at r1 hG ⊢
  have hgl := hG.len
  have hgs := hG.size rfl
  have hgv := hG.leaves
  subst hgl
  rw [if_neg (by omega), wp_bind]
  refine wp_mono (emitWindowSeq_wp (n := n) ?_ a4.1 (hE.step (treeCsc_wf hf) h.toWinsCore hc hlc hG.parts
    (hp _ hgv hgs))) ?_
  · intro x hx
    exact ((h.mem_nodes hlc x).1 (hG.parts.perm.mem_iff.1 hx)).1
  · rintro ⟨e, lab'⟩ ⟨he, hlab⟩
    rw [wp_ok]
    exact ⟨⟨k1.ptrLen, k1.noLen, r1⟩, _, hgv, hgs, he⟩

/-- The number of bins of the windows behind the last one is not used. -/
theorem window_take (P : Params K) (past : Bool) (V : Wins) (nodeCost levelCost : List K) (zero : K) {l : Nat}
    (hl : l < cnt) (s : St K) :
    window P past n L t V nodeCost levelCost zero l s
      = window P past n L t { V with sizes := V.sizes.take cnt } nodeCost levelCost zero l s := by
  have hrd : rd (V.sizes.take cnt) l = rd V.sizes l := by
    unfold rd
    rw [List.getElem?_take, if_pos hl]
  unfold window Lbc.pack
  dsimp only
  rw [hrd]
  rfl

/-! ### The inspector -/

omit [LT K] [DecidableLT K] in
theorem levelCosts_wp (debug : Bool) {lev : List Nat} (hlev : lev.length = n)
    (hlt : ∀ v, v < n → lev.getD v 0 < L) {nodeCost : List K} (hc : nodeCost.length = n) (zero : K) :
    wp (levelCosts debug n L lev nodeCost zero) (fun c => c.length = L) := by
  unfold levelCosts
  refine forRange_wp' (fun _ c => c.length = L) (Nat.zero_le _) (by simp) ?_ (fun _ h => h)
  intro i c _ hi hcl
  have := hlt i hi
  rw [rd_getD 0 (by omega), ok_bind, if_neg (by omega), rd_eq (by omega), ok_bind, rd_eq (by omega), ok_bind,
    wr_eq (by omega), wp_ok]
  simpa using hcl

omit [Add K] [LT K] [DecidableLT K] in
theorem windows_wp (hl : t.length = n) (hf : Forest n (parentOf t)) (hn : 1 < n) (P : Params K)
    (minDist divRate : Int) :
    wp (windows P n t minDist divRate) (fun r => LevelsOk n t r.2.height r.2.levelPtr r.2.levelSet r.2.node2Level ∧
      HOut r.2.height minDist P.innerParts r.1 r.2.bound r.2.sizes) := by
  unfold windows
  rw [wp_bind]
  refine wp_mono (countChildren_wp hl hf) ?_
  rintro cnt ⟨c1, c2⟩
  rw [wp_bind]
  refine wp_mono (levelSetEff_wp hl hf hn c1 c2 P.debug) ?_
  rintro ⟨L, ptr, set, n2l⟩ hL
  dsimp only at hL ⊢
  obtain ⟨v0, hv0, htop⟩ := hL.top
  rw [wp_bind]
  have hLn : L ≤ n := by
    have := (hL.height v0 hv0).1.lt hf
    omega
  refine wp_mono (heightPartition_wp P.debug P.innerParts minDist divRate (L := L) (by omega)
    (by rw [hL.ptrLen]; omega) ?_) ?_
  · intro i hi
    rw [hL.start i (by omega), hL.start (i + 1) (by omega)]
    exact below_mono _ _ (by omega)
  · rintro ⟨c, b, s⟩ ho
    rw [wp_ok]
    exact ⟨hL, ho⟩

omit [LT K] [DecidableLT K] in
theorem subtreeCost_len (hl : t.length = n) (hf : Forest n (parentOf t)) {w : List K} (hw : w.length = n) :
    wp (subtreeCost n t w) (fun c => c.length = n) := by
  unfold subtreeCost
  rw [wp_bind]
  refine wp_mono (forRange_wp' (fun k (c : List K) => c.length = k) (Nat.zero_le n) (by simp) ?_
    (fun _ h => h)) ?_
  · intro k c _ hk hc
    rw [rd_eq (by omega), ok_bind, wp_ok]
    simpa using hc
  intro c hc
  refine forRange_wp' (fun _ (c : List K) => c.length = n) (Nat.zero_le n) hc ?_ (fun _ h => h)
  intro k c _ hk hc
  unfold costStep
  rw [rd_tree (by omega), ok_bind]
  rcases parent_cases (t := t) k with ⟨e1, e2⟩ | ⟨p, e1, e2⟩
  · rw [if_neg (by omega), wp_ok]
    exact hc
  · have hp := hf k p hk e2
    rw [e1, if_pos (by omega), Verif.Tree.rdZ_nat, rd_eq (by omega), ok_bind, rd_eq (by omega), ok_bind,
      Verif.Tree.wrZ_nat, wr_eq (by omega), wp_ok]
    simpa using hc

omit [Add K] [LT K] [DecidableLT K] in
theorem windows_count {P : Params K} {minDist divRate : Int} {r : Nat × Wins}
    (h : windows P n t minDist divRate = ok r) {q : Nat} (hq : P.innerParts < 2 * rate divRate ^ q) : r.1 ≤ q + 1 := by
  unfold windows at h
  obtain ⟨c, -, h⟩ := bindOk h
  obtain ⟨o, -, h⟩ := bindOk h
  obtain ⟨w, h1, h⟩ := bindOk h
  cases h
  exact heightPartition_count P.debug h1 hq

/-- The parts up to a window fit into the array. -/
theorem parts_fit {V : Wins} (h : WinsOk (treeCsc n t) L cnt V) {minDist inner : Int} {sizes : List Nat}
    (ho : HOut L minDist inner cnt V.bound sizes) (hs : V.sizes = sizes.take cnt) (hn : 1 < n)
    (hg : 2 ≤ minDist ∨ inner ≤ 1 ∨ L ≤ 2 ∨ cnt < L) {k p m : Nat} (hk : k < cnt)
    (hp : p + (min (V.lo k) L - k) ≤ V.levelPtr.getD (min (V.lo k) L) 0) (hm : m ≤ (V.leaves k).length)
    (hm2 : m ≤ V.sizes.getD k 0) :
    p + m < n ∧ p + m + (min (V.lo (k + 1)) L - (k + 1)) ≤ V.levelPtr.getD (min (V.lo (k + 1)) L) 0 := by
  have hge : ∀ j, j ≤ cnt → j ≤ V.lo j := by
    intro j
    induction j with
    | zero => intro _; exact Nat.zero_le _
    | succ j ih =>
      intro hj
      have := ih (by omega)
      have := (h.lo_spec (l := j) (by omega)).2.1
      omega
  have hgrow : ∀ a d, a + d ≤ L → V.levelPtr.getD a 0 + d ≤ V.levelPtr.getD (a + d) 0 := by
    intro a d
    induction d with
    | zero => intro _; exact Nat.le_refl _
    | succ d ih =>
      intro hd
      have := ih (by omega)
      have := h.lvl.strict (a + d) (by omega)
      show _ ≤ V.levelPtr.getD (a + d + 1) 0
      omega
  have hgk := hge k (by omega)
  obtain ⟨h1, h2, h3⟩ := h.lo_spec hk
  have hO := h.lvl
  have hlen : (V.leaves k).length = V.levelPtr.getD (V.lo k + 1) 0 - V.levelPtr.getD (V.lo k) 0 := by
    unfold Wins.leaves
    rw [win_length hO (by omega)]
  have hup := hO.ptr_mono (a := V.lo k) (b := V.lo k + 1) (by omega) (by omega)
  have hup2 := hO.ptr_mono (a := V.lo k + 1) (b := min (V.lo (k + 1)) L) (by omega) (by omega)
  rw [Nat.min_eq_left (by omega)] at hp
  have hgr := hgrow (V.lo k + 1) (min (V.lo (k + 1)) L - (V.lo k + 1)) (by omega)
  rw [show V.lo k + 1 + (min (V.lo (k + 1)) L - (V.lo k + 1)) = min (V.lo (k + 1)) L by omega] at hgr
  refine ⟨?_, by omega⟩
  have hLn := hO.ptrL
  change V.levelPtr.getD L 0 = n at hLn
  rcases Nat.lt_or_ge (V.lo k + 1) L with hlt | hge
  · have := hO.strict (V.lo k + 1) hlt
    have := hO.ptr_mono (a := V.lo k + 1 + 1) (b := L) (by omega) (by omega)
    omega
  · have hmono := h.lo_mono (a := k) (b := cnt - 1) (by omega) (by omega)
    have h1c : cnt = 1 → V.sizes.getD k 0 ≤ 1 → p + m < n := by
      intro hc hz
      subst hc
      obtain rfl : k = 0 := by omega
      have : V.lo 0 = 0 := by unfold Wins.lo; rw [h.cuts.first]; rfl
      rw [this, hO.ptr0] at hp
      omega
    by_cases hL2 : L ≤ 2
    · obtain ⟨e1, e2⟩ := ho.small hL2
      refine h1c e1 ?_
      rw [hs, e2, e1]
      have : k = 0 := by omega
      subst this
      exact Nat.le_refl _
    · by_cases hi : inner ≤ 1
      · refine h1c (ho.one hi) ?_
        have hl' : k < V.sizes.length := by rw [h.slen]; exact hk
        have hmem : V.sizes.getD k 0 ∈ sizes := by
          have := List.mem_of_getElem? (getElem?_getD 0 hl')
          rw [hs] at this ⊢
          exact List.mem_of_mem_take this
        have := (ho.spos _ hmem).2
        omega
      · have hc1 : 1 < cnt := by
          by_contra hc
          have : cnt = 1 := by have := h.cuts.cnt_pos; omega
          subst this
          obtain rfl : k = 0 := by omega
          have : V.lo 0 = 0 := by unfold Wins.lo; rw [h.cuts.first]; rfl
          omega
        have hd := ho.dist hc1
        have : (V.bound.getD (cnt - 1) 0).toNat = V.lo (cnt - 1) := rfl
        by_cases hcl : cnt < L
        · have : V.lo k + 1 = L := by omega
          rw [this] at hlen hup
          omega
        · omega

theorem coarsenTree_wp (hl : t.length = n) (hf : Forest n (parentOf t)) (hn : 1 < n)
    (hchain : ∀ v, ¬ IsHeight n (parentOf t) v (n - 1)) {P : Params K} (hsort : ∀ l, (P.sort l).Perm l)
    {minDist : Int} (divRate : Int)
    (hg : 2 ≤ minDist ∨ P.innerParts ≤ 1 ∨ (∀ v k, IsHeight n (parentOf t) v k → k < 2) ∨
      ∃ q v k, P.innerParts < 2 * rate divRate ^ q ∧ IsHeight n (parentOf t) v k ∧ q < k)
    {nodeCost : List K} (hc : nodeCost.length = n) (zero : K) :
    wp (coarsenTree P true n t minDist divRate nodeCost zero) (fun s =>
      s.Valid n (Relation.TransGen (ChildOf n (parentOf t))) ∧ s.nodes.length = n) := by
  unfold coarsenTree
  rw [wp_bind]
  obtain ⟨⟨cnt, V⟩, hw, hV, hH⟩ := wp_iff.1 (windows_wp hl hf hn P minDist divRate)
  rw [hw, wp_ok]
  dsimp only at hV hH ⊢
  obtain ⟨v0, hv0, htop⟩ := hV.top
  have hLn : V.height < n := by
    have h1 := (hV.height v0 hv0).1.lt hf
    rcases Nat.lt_or_ge V.height n with h | h
    · exact h
    · exact absurd (by rw [show n - 1 = V.node2Level.getD v0 0 by omega]; exact hV.height v0 hv0) (hchain v0)
  have hg' : 2 ≤ minDist ∨ P.innerParts ≤ 1 ∨ V.height ≤ 2 ∨ cnt < V.height := by
    rcases hg with h | h | h | ⟨q, v, k, h1, h2, h3⟩
    · exact .inl h
    · exact .inr (.inl h)
    · have := h v0 _ (hV.height v0 hv0)
      exact .inr (.inr (.inl (by omega)))
    · have hv := (h2.1.lt hf).2
      have h4 := (hV.height v hv).2 _ h2.1
      have h5 := hV.lt v hv
      have h6 := windows_count hw h1
      dsimp only at h6
      exact .inr (.inr (.inr (by omega)))
  have hW : WinsOk (treeCsc n t) V.height cnt { V with sizes := V.sizes.take cnt } :=
    ⟨⟨hV.levelOk hf hLn, rfl, hH.cuts, hH.top, by simpa using hH.slen,
      fun x hx => (hH.spos x (List.mem_of_mem_take hx)).1⟩, hLn, by
        have := hV.ptrLen
        dsimp only; omega⟩
  rw [wp_bind]
  refine wp_mono (subtreeCost_len hl hf hc) (fun _ _ => ?_)
  rw [wp_bind]
  refine wp_mono (levelCosts_wp P.debug hV.n2lLen hV.lt hc zero) (fun levelCost _ => ?_)
  rw [wp_bind]
  refine wp_mono (forRange_wp' (fun k (s : St K) => StOk n s ∧ ∃ p,
      p + (min (V.lo k) V.height - k) ≤ V.levelPtr.getD (min (V.lo k) V.height) 0 ∧
      EmInv (treeCsc n t) V.height { V with sizes := V.sizes.take cnt } k p s.emit)
    (Nat.zero_le cnt) ?_ ?_ (fun _ h => h)) ?_
  · exact ⟨⟨by simp, by simp, by simp⟩, 0, by
      have : V.lo 0 = 0 := by unfold Wins.lo; rw [hH.cuts.first]; rfl
      rw [this]; omega, EmInv.start hW.toWinsCore⟩
  · rintro k s _ hk ⟨hs, p, hp, hE⟩
    rw [window_take P true V nodeCost levelCost zero hk s]
    refine wp_mono (window_wp hl hf hW hsort hc zero hk hs hE
      (fun m hm1 hm2 => (parts_fit hW hH rfl hn hg' hk hp hm1 hm2).1)) ?_
    rintro s' ⟨hs', m, hm1, hm2, hE'⟩
    exact ⟨hs', p + m, (parts_fit hW hH rfl hn hg' hk hp hm1 hm2).2, hE'⟩
  · rintro s ⟨-, p, -, hE⟩
    obtain ⟨he1, he2⟩ := hE.final hW.toWinsCore
    obtain ⟨parts, hpt, -⟩ := he1.ptrs
    rw [rd_eq (List.getElem?_eq_some_iff.1 hpt.last).1, ok_bind, wp_ok]
    refine ⟨he1.of_trans ?_ ?_, he2⟩
    · intro u v hd
      exact (hf u v ((treeCsc_dep hf).1 hd).1 ((treeCsc_dep hf).1 hd).2).2
    · intro u v hd
      exact Relation.TransGen.mono (p := (treeCsc n t).Dep) (fun _ _ h => (treeCsc_dep hf).2 h) _ _ hd

end
end Verif.LbcTree
