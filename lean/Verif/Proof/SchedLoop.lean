import Verif.Proof.SchedWin
import Verif.Proof.Blocks

/-! # `computeSchedule` produces a valid schedule -/

namespace Verif.Hdagg
open Res CC Csc LevelSet

variable {g : Csc} {L : Nat} {ptr set ntl : List Nat}

/-! ### Class boundaries -/

/-- Class boundary number `q`. -/
def cB (n : Nat) (lab : List Int) (q : Nat) : Nat :=
  (0 :: (labelList n lab).map (· + 1)).getD q 0

theorem cB_zero (n : Nat) (lab : List Int) : cB n lab 0 = 0 := rfl

theorem labelList_sorted (n : Nat) (lab : List Int) : (labelList n lab).Pairwise (· < ·) :=
  List.pairwise_lt_range.filter _

theorem cB_sorted (n : Nat) (lab : List Int) :
    (0 :: (labelList n lab).map (· + 1)).Pairwise (· < ·) := by
  rw [List.pairwise_cons]
  constructor
  · intro a ha
    obtain ⟨i, _, rfl⟩ := List.mem_map.1 ha
    omega
  · rw [List.pairwise_map]
    exact (labelList_sorted n lab).imp (by intro a b h; omega)

theorem cB_mono {n : Nat} {lab : List Int} {q q' : Nat} (h : q ≤ q')
    (h' : q' ≤ (labelList n lab).length) : cB n lab q ≤ cB n lab q' := by
  rcases Nat.eq_or_lt_of_le h with rfl | h
  · exact le_refl _
  · have hs := List.pairwise_iff_getElem.1 (cB_sorted n lab) q q' (by simp; omega) (by simp; omega) h
    have hg : ∀ k, (hk : k < (0 :: (labelList n lab).map (· + 1)).length) →
        cB n lab k = (0 :: (labelList n lab).map (· + 1))[k] := by
      intro k hk
      rw [cB, List.getD_eq_getElem?_getD, List.getElem?_eq_getElem hk]; rfl
    rw [hg q (by simp; omega), hg q' (by simp; omega)]
    exact le_of_lt hs

theorem cB_all {nodes : List Nat} {lab : List Int} (h : LabelsX g nodes lab) (hn : nodes.Nodup)
    {u : Nat} (hu : u ∈ nodes) : key lab u < cB g.n lab (labelList g.n lab).length := by
  have h1 : key lab u ∈ labelList g.n lab := by
    simp only [labelList, List.mem_filter, List.mem_range, decide_eq_true_eq]
    exact ⟨LabelsX.key_lt h hn hu, h.mem_lab.2 ⟨u, hu, (LabelsX.key_eq h hu).symm⟩⟩
  obtain ⟨q, hq⟩ := List.mem_iff_getElem?.1 h1
  have hql := (List.getElem?_eq_some_iff.1 hq).1
  have e : cB g.n lab (q + 1) = key lab u + 1 := by
    rw [cB, List.getD_cons_succ, List.getD_eq_getElem?_getD, List.getElem?_map, hq]; rfl
  have := cB_mono (n := g.n) (lab := lab) (q := q + 1) hql (le_refl _)
  omega

theorem partBounds_length (n : Nat) (nodes : List Nat) (lab : List Int) :
    (partBounds n nodes lab).length = (labelList n lab).length + 1 := by simp [partBounds]

theorem partBounds_getD {n : Nat} {nodes : List Nat} {lab : List Int} {q : Nat}
    (h : q ≤ (labelList n lab).length) :
    (partBounds n nodes lab).getD q 0 = below (key lab) nodes (cB n lab q) := by
  cases q with
  | zero => rw [cB_zero, below_zero]; rfl
  | succ q =>
    rw [partBounds, cB, List.getD_cons_succ, List.getD_cons_succ, List.getD_eq_getElem?_getD,
      List.getD_eq_getElem?_getD, List.getElem?_map, List.getElem?_map,
      List.getElem?_eq_getElem (by omega)]
    rfl

/-- Boundaries chosen from the class boundaries. -/
structure BoundsOk (n : Nat) (nodes : List Nat) (lab : List Int) (b : List Nat) (m : Nat)
    (f : Nat → Nat) : Prop where
  len : b.length = m + 1
  get : ∀ t, t ≤ m → b.getD t 0 = below (key lab) nodes (cB n lab (f t))
  f0 : f 0 = 0
  fm : f m = (labelList n lab).length
  fmono : ∀ t t', t ≤ t' → t' ≤ m → f t ≤ f t'

theorem BoundsOk.toPtr {nodes : List Nat} {lab : List Int} (h : LabelsX g nodes lab)
    (hn : nodes.Nodup) {b : List Nat} {m : Nat} {f : Nat → Nat}
    (hb : BoundsOk g.n nodes lab b m f) : PtrOk b m nodes.length := by
  have hfl : ∀ t, t ≤ m → f t ≤ (labelList g.n lab).length := by
    intro t ht; rw [← hb.fm]; exact hb.fmono t m ht (le_refl _)
  refine PtrOk.mk' (by rw [hb.len]; omega) ?_ ?_ ?_
  · rw [hb.get 0 (by omega), hb.f0, cB_zero, below_zero]
  · rw [hb.get m (le_refl _), hb.fm]
    exact below_all _ _ _ (fun u hu => cB_all h hn hu)
  · intro t ht
    rw [hb.get t (by omega), hb.get (t + 1) (by omega)]
    exact below_mono _ _ (cB_mono (hb.fmono t (t + 1) (by omega) (by omega)) (hfl _ (by omega)))

theorem boundsOk_parts (n : Nat) (nodes : List Nat) (lab : List Int) :
    BoundsOk n nodes lab (partBounds n nodes lab) (labelList n lab).length id :=
  ⟨partBounds_length _ _ _, fun _ ht => partBounds_getD ht, rfl, rfl, fun _ _ h _ => h⟩

theorem mergeParts_spec {n : Nat} {nodes : List Nat} {lab : List Int} {cores P : Nat}
    {chunk : List Nat} (hC : ChunkOk cores P chunk) (hP : (labelList n lab).length ≤ P) :
    wp (mergeParts false cores chunk (partBounds n nodes lab)) (fun b =>
      BoundsOk n nodes lab b cores fun t => min (chunk.getD t 0) (labelList n lab).length) := by
  have hpl := partBounds_length n nodes lab
  have hcl := hC.len
  have hget : ∀ t, t ≤ cores → chunk[t]? = some (chunk.getD t 0) := fun t ht =>
    getElem?_getD 0 (by omega)
  have h0 : chunk.getD 0 0 = 0 := by
    have := hC.first; rw [hget 0 (by omega)] at this; simpa using this
  have hl : chunk.getD cores 0 = P := by
    have := hC.last; rw [hget cores (le_refl _)] at this; simpa using this
  have hm : ∀ t, t < cores → chunk.getD t 0 ≤ chunk.getD (t + 1) 0 := fun t ht =>
    hC.mono t ht _ _ (hget t (by omega)) (hget (t + 1) (by omega))
  have hmono : ∀ t t', t ≤ t' → t' ≤ cores → chunk.getD t 0 ≤ chunk.getD t' 0 := by
    intro t t' h1
    induction t' with
    | zero => intro _; have : t = 0 := by omega
              rw [this]
    | succ t' ih =>
      intro h2
      by_cases h : t = t' + 1
      · rw [h]
      · have := ih (by omega) (by omega)
        have := hm t' (by omega)
        omega
  unfold mergeParts
  have hback : back chunk = ok P := by
    unfold back
    rw [List.getLast?_eq_getElem?, hcl, Nat.add_sub_cancel, hC.last]
  rw [hback]
  simp only [ok_bind]
  rw [if_neg (by simp)]
  refine forRange_wp' (fun i (b : List Nat) => b.length = cores + 1 ∧
    ∀ t, t ≤ i → b.getD t 0 = below (key lab) nodes
      (cB n lab (min (chunk.getD t 0) (labelList n lab).length))) (Nat.zero_le _) ?_ ?_ ?_
  · refine ⟨by simp, ?_⟩
    intro t ht
    have : t = 0 := by omega
    rw [this, h0, Nat.zero_min, cB_zero, below_zero]
    exact getD_replicate _ _ _ _ (by omega)
  · rintro i b _ hi ⟨h1, h2⟩
    rw [rd_getD 0 (by omega)]
    simp only [ok_bind]
    rw [rd_getD 0 (by omega), hpl, Nat.add_sub_cancel, partBounds_getD (by omega)]
    simp only [ok_bind]
    rw [wr_eq (by omega)]
    simp only [wp_ok]
    refine ⟨by simpa using h1, ?_⟩
    intro t ht
    rw [getD_set, h1]
    by_cases hte : i + 1 = t
    · rw [if_pos ⟨hte, by omega⟩, hte]
    · rw [if_neg (by omega)]; exact h2 t (by omega)
  · rintro b ⟨h1, h2⟩
    refine ⟨h1, h2, by rw [h0]; simp, by rw [hl]; omega, ?_⟩
    intro t t' ht ht'
    have := hmono t t' ht ht'
    omega

/-! ### Sorting inside the parts -/

theorem sortRange_spec {l : List Nat} {lo hi : Nat} (h1 : lo ≤ hi) (h2 : hi ≤ l.length) :
    wp (sortRange l lo hi) (fun l' => l'.length = l.length ∧
      (∀ k, k < lo ∨ hi ≤ k → l'[k]? = l[k]?) ∧ (slice l' lo hi).Perm (slice l lo hi) ∧
      (slice l' lo hi).Pairwise (· ≤ ·)) := by
  unfold sortRange
  rw [if_pos ⟨h1, h2⟩]
  simp only [wp_ok]
  have hsd : (List.drop lo l).take (hi - lo) = slice l lo hi := rfl
  rw [hsd]
  have hsl : ((slice l lo hi).insertionSort (· ≤ ·)).length = hi - lo := by
    rw [List.length_insertionSort, slice_length h2]
  have htl : (List.take lo l).length = lo := by simp; omega
  have hs : slice (List.take lo l ++ (slice l lo hi).insertionSort (· ≤ ·) ++ List.drop hi l) lo hi
      = (slice l lo hi).insertionSort (· ≤ ·) := by
    unfold slice at hsl ⊢
    rw [List.append_assoc, List.drop_left' htl, List.take_left' hsl]
  refine ⟨?_, ?_, ?_, ?_⟩
  · simp only [List.length_append, hsl, htl, List.length_drop]; omega
  · intro k hk
    rcases hk with hk | hk
    · rw [List.append_assoc, List.getElem?_append_left (by omega), List.getElem?_take, if_pos hk]
    · rw [List.getElem?_append_right (by simp only [List.length_append, hsl, htl]; omega),
        List.getElem?_drop]
      congr 1
      simp only [List.length_append, hsl, htl]; omega
  · rw [hs]; exact List.perm_insertionSort _ _
  · rw [hs]; exact List.pairwise_insertionSort _ _

theorem sortParts_spec {b ns : List Nat} {m : Nat} (hp : PtrOk b m ns.length)
    (hl : b.length = m + 1) :
    wp (sortParts b ns) (fun l => l.Perm ns ∧ ∀ t, t < m →
      (slice l (b.getD t 0) (b.getD (t + 1) 0)).Perm (slice ns (b.getD t 0) (b.getD (t + 1) 0)) ∧
      (slice l (b.getD t 0) (b.getD (t + 1) 0)).Pairwise (· ≤ ·)) := by
  unfold sortParts
  rw [hl, Nat.add_sub_cancel]
  refine blocks_loop hp ?_
  intro t ht l hperm
  rw [rd_getD 0 (by omega)]
  simp only [ok_bind]
  rw [rd_getD 0 (by omega)]
  simp only [ok_bind]
  have := hp.dle (b := t + 1) ht
  exact sortRange_spec (hp.dmono ht) (by rw [hperm.length_eq]; exact this)

/-- `inv` is the inverse of the permutation `post`. -/
structure InvOk (n : Nat) (post inv : List Nat) : Prop where
  plen : post.length = n
  len : inv.length = n
  right : ∀ u, u < n → post[inv.getD u 0]? = some u
  left : ∀ k u, post[k]? = some u → inv.getD u 0 = k

theorem postInv_spec {n : Nat} {post : List Nat} (hp : post.Perm (List.range n)) :
    wp (postInv n post) (InvOk n post) := by
  have hlen : post.length = n := by simpa using hp.length_eq
  have hnd : post.Nodup := hp.nodup_iff.2 List.nodup_range
  have hlt : ∀ {k u : Nat}, post[k]? = some u → u < n := fun {k u} h =>
    List.mem_range.1 (hp.mem_iff.1 (List.mem_of_getElem? h))
  unfold postInv
  refine forRange_wp' (fun i (inv : List Nat) => inv.length = n ∧
    ∀ k u, k < i → post[k]? = some u → inv.getD u 0 = k) (Nat.zero_le _) ?_ ?_ ?_
  · exact ⟨by simp, by intro k u h; omega⟩
  · rintro i inv _ hi ⟨h1, h2⟩
    have hg := getElem?_getD (l := post) 0 hi
    have hv := hlt hg
    rw [rd_getD 0 hi]
    simp only [ok_bind]
    rw [wr_eq (by omega)]
    simp only [wp_ok]
    refine ⟨by simpa using h1, ?_⟩
    intro k u hk hu
    rw [getD_set, h1]
    by_cases hki : k = i
    · subst hki
      rw [hg, Option.some.injEq] at hu
      rw [if_pos ⟨hu, hv⟩]
    · rw [if_neg]
      · exact h2 k u (by omega) hu
      · rintro ⟨he, _⟩
        rw [he] at hg
        exact hki (nodup_getElem?_inj hnd hu hg)
  · rintro inv ⟨h1, h2⟩
    have hleft : ∀ k u, post[k]? = some u → inv.getD u 0 = k := fun k u h =>
      h2 k u (List.getElem?_eq_some_iff.1 h).1 h
    refine ⟨hlen, h1, ?_, hleft⟩
    intro u hu
    obtain ⟨k, hk⟩ := List.mem_iff_getElem?.1 (hp.mem_iff.2 (List.mem_range.2 hu))
    rw [hleft k u hk, hk]

theorem sortPartsPost_spec {n : Nat} {b ns post inv : List Nat} {m : Nat} (hI : InvOk n post inv)
    (hp : PtrOk b m ns.length) (hl : b.length = m + 1) (hns : ∀ u ∈ ns, u < n)
    (hnl : ns.length ≤ n) :
    wp (sortPartsPost n post inv b ns) (fun l => l.Perm ns ∧ ∀ t, t < m →
      (slice l (b.getD t 0) (b.getD (t + 1) 0)).Perm (slice ns (b.getD t 0) (b.getD (t + 1) 0)) ∧
      (slice l (b.getD t 0) (b.getD (t + 1) 0)).Pairwise
        (fun x y => inv.getD x 0 ≤ inv.getD y 0)) := by
  unfold sortPartsPost
  rw [hl, Nat.add_sub_cancel]
  refine blocks_loop hp ?_
  intro t ht l hperm
  have hlen := hperm.length_eq
  have hle := hp.dmono ht
  have hln := hp.dle (b := t + 1) ht
  rw [rd_getD 0 (by omega)]
  simp only [ok_bind]
  rw [rd_getD 0 (by omega)]
  simp only [ok_bind]
  set lo := b.getD t 0
  set hi := b.getD (t + 1) 0
  have hlt : ∀ k, k < ns.length → l.getD k 0 < n := by
    intro k hk
    exact hns _ (hperm.mem_iff.1 (List.mem_of_getElem? (getElem?_getD 0 (by omega))))
  have hkeys : forRange lo hi (fun j keys => do
      let u ← rd l j
      let k ← rd inv u
      if keys.length < n then ok (keys ++ [k]) else ub) []
      = ok ((slice l lo hi).map fun u => inv.getD u 0) := by
    have : wp (forRange lo hi (fun j keys => do
      let u ← rd l j
      let k ← rd inv u
      if keys.length < n then ok (keys ++ [k]) else ub) [])
      (fun r => r = (slice l lo hi).map fun u => inv.getD u 0) := by
      refine forRange_wp' (fun j (keys : List Nat) =>
        keys = (slice l lo j).map fun u => inv.getD u 0) hle ?_ ?_ (fun _ h => h)
      · rw [slice_self]; rfl
      · rintro j keys hj1 hj2 rfl
        rw [rd_getD 0 (by omega)]
        simp only [ok_bind]
        rw [rd_getD 0 (by rw [hI.len]; exact hlt j (by omega))]
        simp only [ok_bind]
        rw [if_pos (by rw [List.length_map, slice_length (by omega)]; omega)]
        simp only [wp_ok]
        rw [slice_succ hj1 (getElem?_getD 0 (by omega)), List.map_append]; rfl
    obtain ⟨r, h1, h2⟩ := wp_iff.1 this
    rw [h1, h2]
  rw [hkeys]
  simp only [ok_bind]
  set keys := ((slice l lo hi).map fun u => inv.getD u 0).insertionSort (· ≤ ·) with hkdef
  have hkp : keys.Perm ((slice l lo hi).map fun u => inv.getD u 0) := List.perm_insertionSort _ _
  have hkl : keys.length = hi - lo := by
    rw [hkp.length_eq, List.length_map, slice_length (by omega)]
  have hpost : ∀ k ∈ keys, ∃ u, u < n ∧ post[k]? = some u := by
    intro k hk
    obtain ⟨u, hu, rfl⟩ := List.mem_map.1 (hkp.mem_iff.1 hk)
    obtain ⟨j, hj1, hj2, hj3⟩ := mem_slice.1 hu
    have hun : u < n := hns u (hperm.mem_iff.1 (List.mem_of_getElem? hj3))
    exact ⟨u, hun, hI.right u hun⟩
  refine forRange_wp' (fun j (l' : List Nat) => l'.length = l.length ∧
    (∀ k, k < lo ∨ j ≤ k → l'[k]? = l[k]?) ∧
    (∀ k, lo ≤ k → k < j → l'[k]? = some (post.getD (keys.getD (k - lo) 0) 0))) hle ?_ ?_ ?_
  · exact ⟨rfl, fun _ _ => rfl, by intro k h1 h2; omega⟩
  · rintro j l' hj1 hj2 ⟨h1, h2, h3⟩
    have hkj := getElem?_getD (l := keys) (k := j - lo) 0 (by omega)
    obtain ⟨u, hu, hpu⟩ := hpost _ (List.mem_of_getElem? hkj)
    rw [rd_getD 0 (by omega)]
    simp only [ok_bind]
    rw [rd_getD 0 (List.getElem?_eq_some_iff.1 hpu).1]
    simp only [ok_bind]
    rw [wr_eq (by omega)]
    simp only [wp_ok]
    refine ⟨by simpa using h1, ?_, ?_⟩
    · intro k hk
      rw [List.getElem?_set, if_neg (by omega)]
      exact h2 k (by omega)
    · intro k hk1 hk2
      rw [List.getElem?_set]
      by_cases hkj' : j = k
      · rw [if_pos hkj', if_pos (by omega), hkj']
      · rw [if_neg hkj']; exact h3 k hk1 (by omega)
  · rintro l' ⟨h1, h2, h3⟩
    have hs : slice l' lo hi = keys.map fun k => post.getD k 0 := by
      apply List.ext_getElem?
      intro k
      rw [getElem?_slice, List.getElem?_map]
      by_cases hk : lo + k < hi
      · rw [if_pos hk, h3 _ (by omega) hk, getElem?_getD 0 (by omega : k < keys.length),
          Nat.add_sub_cancel_left]; rfl
      · rw [if_neg hk, List.getElem?_eq_none (by omega)]; rfl
    refine ⟨h1, h2, ?_, ?_⟩
    · rw [hs]
      refine (hkp.map _).trans ?_
      rw [List.map_map]
      have : List.map ((fun k => post.getD k 0) ∘ fun u => inv.getD u 0) (slice l lo hi)
          = slice l lo hi := by
        conv_rhs => rw [← List.map_id (slice l lo hi)]
        apply List.map_congr_left
        intro u hu
        obtain ⟨j, hj1, hj2, hj3⟩ := mem_slice.1 hu
        have hun : u < n := hns u (hperm.mem_iff.1 (List.mem_of_getElem? hj3))
        simp only [Function.comp, id]
        rw [List.getD_eq_getElem?_getD, hI.right u hun]; rfl
      rw [this]
    · rw [hs, List.pairwise_map]
      have hsort : keys.Pairwise (· ≤ ·) := List.pairwise_insertionSort _ _
      refine hsort.imp_of_mem ?_
      intro a c ha hc hac
      obtain ⟨u, hu, hpu⟩ := hpost a ha
      obtain ⟨v, hv, hpv⟩ := hpost c hc
      rw [show post.getD a 0 = u by rw [List.getD_eq_getElem?_getD, hpu]; rfl,
        show post.getD c 0 = v by rw [List.getD_eq_getElem?_getD, hpv]; rfl]
      have e1 := hI.left a u hpu
      have e2 := hI.left c v hpv
      show inv.getD u 0 ≤ inv.getD v 0
      omega

/-! ### The nodes of a window -/

theorem windowNodes_spec (hO : LevelOk g L ptr set ntl) {d : SchedInp} (hp : d.levelPtr = ptr)
    (hs : d.levelSet = set) (hn : d.n = g.n) {lb ub : Nat} (h1 : lb ≤ ub) (h2 : ub ≤ L) :
    windowNodes d lb ub = ok (win ptr set lb ub) := by
  have hpl := hO.ptrLen
  have hsl := hO.setLen
  have hLn := hO.lN
  have key' : wp (windowNodes d lb ub) (fun r => r = win ptr set lb ub) := by
    unfold windowNodes
    rw [hp, hs, hn]
    refine forRange_wp' (fun l (acc : List Nat) => acc = win ptr set lb l) h1 ?_ ?_ (fun _ h => h)
    · rw [win_self]
    · rintro l acc hl1 hl2 rfl
      rw [rd_getD 0 (by omega)]
      simp only [ok_bind]
      rw [rd_getD 0 (by omega)]
      simp only [ok_bind]
      have m1 := LevelOk.ptr_mono hO (a := lb) (b := l) hl1 (by omega)
      have m2 := LevelOk.ptr_mono hO (a := l) (b := l + 1) (by omega) (by omega)
      have m3 := LevelOk.ptr_le hO (a := l + 1) (by omega)
      refine forRange_wp' (fun j (acc : List Nat) => acc = slice set (ptr.getD lb 0) j) m2 ?_ ?_ ?_
      · rfl
      · rintro j acc hj1 hj2 rfl
        rw [rd_getD 0 (by omega)]
        simp only [ok_bind]
        rw [if_pos (by rw [slice_length (by omega)]; omega)]
        simp only [wp_ok]
        rw [slice_succ (by omega) (getElem?_getD 0 (by omega))]
      · rintro acc rfl
        rfl
  obtain ⟨r, e1, e2⟩ := wp_iff.1 key'
  rw [e1, e2]

theorem LevelOk.win_sorted (h : LevelOk g L ptr set ntl) (lb ub : Nat) :
    (win ptr set lb ub).Pairwise (fun x y => ntl.getD x 0 ≤ ntl.getD y 0) := by
  rw [List.pairwise_iff_getElem]
  intro i j hi hj hij
  have e1 := List.getElem?_eq_getElem hi
  have e2 := List.getElem?_eq_getElem hj
  unfold win at e1 e2
  rw [getElem?_slice] at e1 e2
  split at e1
  · split at e2
    · obtain ⟨a1, a2, a3, a4⟩ := LevelOk.level_at h e1
      obtain ⟨b1, b2, b3, b4⟩ := LevelOk.level_at h e2
      by_contra hc
      change ¬ (ntl.getD (slice set _ _)[i] 0 ≤ ntl.getD (slice set _ _)[j] 0) at hc
      have := LevelOk.ptr_mono h (a := ntl.getD (slice set (ptr.getD lb 0) (ptr.getD ub 0))[j] 0 + 1)
        (b := ntl.getD (slice set (ptr.getD lb 0) (ptr.getD ub 0))[i] 0) (by omega) (by omega)
      omega
    · cases e2
  · cases e1

/-! ### One coarse level -/

theorem appendLevel_eq {dep S : Nat → Nat → Prop} {w parts m : Nat} {s : Sched} {b ns : List Nat}
    (hB : Built dep S w parts s) (hl : b.length = m + 1) :
    appendLevel s b ns = ok (s.push parts b ns m) := by
  unfold appendLevel
  have h1 : back s.levelPtr = ok parts := by
    unfold back
    rw [List.getLast?_eq_getElem?, hB.lvLen, Nat.add_sub_cancel, hB.lv.last]
  have h2 : back s.partPtr = ok s.nodes.length := by
    unfold back
    rw [List.getLast?_eq_getElem?, hB.ptLen, Nat.add_sub_cancel, hB.pt.last]
  rw [h1, h2]
  simp only [ok_bind]
  unfold Sched.push
  rw [hl]
  rfl

/-- The parameters of `computeSchedule` agree with the level-set computation. -/
structure SInpOk (g : Csc) (ptr set ntl : List Nat) (d : SchedInp) : Prop where
  n : d.n = g.n
  p : d.p = g.p
  i : d.ix = g.i
  ptr : d.levelPtr = ptr
  set : d.levelSet = set
  lvl : d.lvl = ntl

/-- Every label computation of `computeSchedule` finishes under the oracle. -/
def SCTotal (g : Csc) (L : Nat) (ptr set ntl : List Nat) (cc : Orac) : Prop :=
  ∀ lb ub, lb ≤ ub → ub ≤ L →
    parallelCC g.p g.i lb ub ntl (win ptr set lb ub) (List.replicate g.n (-1))
      (cc lb ub (List.replicate g.n (-1))) ≠ nofuel

theorem exists_scTotal (hwf : g.WF) (hO : LevelOk g L ptr set ntl) :
    ∃ cc, SCTotal g L ptr set ntl cc := by
  classical
  have key' : ∀ lb ub, ∃ sch, lb ≤ ub → ub ≤ L →
      parallelCC g.p g.i lb ub ntl (win ptr set lb ub) (List.replicate g.n (-1)) sch ≠ nofuel := by
    intro lb ub
    by_cases h : lb ≤ ub ∧ ub ≤ L
    · obtain ⟨sch, lab', h1⟩ := (parallelCC_spec hwf (LevelOk.window hO h.1 h.2)
        (lab := List.replicate g.n (-1)) (by simp)).2
      exact ⟨sch, fun _ _ => by rw [h1]; simp⟩
    · exact ⟨[], fun h1 h2 => (h ⟨h1, h2⟩).elim⟩
  choose f hf using key'
  exact ⟨fun lb ub _ => f lb ub, hf⟩

/-- How the nodes inside merged parts are ordered, and why that respects the dependences. -/
structure OrderOk (g : Csc) (D S : Nat → Nat → Prop) (d : SchedInp) (post inv : List Nat) : Prop where
  sub : ∀ u v, D u v → g.Dep u v
  low : d.binPack = true → d.postOrder = false → ∀ u v, D u v → S u v → u < v
  invOk : d.binPack = true → d.postOrder = true → InvOk g.n post inv
  topo : d.binPack = true → d.postOrder = true → ∀ u v, D u v → inv.getD u 0 < inv.getD v 0

/-- A valid coarse level of the window `lb .. ub-1` is appended to a schedule of the levels below
`lb`. -/
theorem appendLevel_push {D S : Nat → Nat → Prop} (hwf : g.WF) (hO : LevelOk g L ptr set ntl)
    (hsub : ∀ u v, D u v → g.Dep u v) {lb ub k parts : Nat} (hlu : lb ≤ ub) (hul : ub ≤ L)
    {s : Sched} (hB : Built D S k parts s) (hs : s.nodes.Perm (win ptr set 0 lb)) {b ns : List Nat}
    {m : Nat} (hLP : LevelPartsOk D S b ns m) (hperm : ns.Perm (win ptr set lb ub)) :
    wp (appendLevel s b ns) (fun s' => s'.levels = s.levels ∧
      s'.nodes.Perm (win ptr set 0 ub) ∧ ∃ parts', Built D S (k + 1) parts' s') := by
  have hW := LevelOk.window hO (lb := lb) (ub := ub) hlu hul
  rw [appendLevel_eq hB hLP.len]
  simp only [wp_ok]
  refine ⟨rfl, ?_, parts + m, hB.push hLP ?_⟩
  · show (s.nodes ++ ns).Perm _
    rw [win_append hO (Nat.zero_le lb) (by omega) hul]
    exact hs.append hperm
  · intro u v huv hu hv
    have h1 := (hW.mem u).1 (hperm.mem_iff.1 hu)
    have h2 := (LevelOk.mem_win hO (Nat.zero_le lb) (by omega) v).1 (hs.mem_iff.1 hv)
    have := LevelOk.dep_lt hwf hO (hsub _ _ huv)
    omega

/-- Dependences stay inside a class of the labels. -/
theorem LabelsX.dep_key {nodes : List Nat} {lab : List Int} (hX : LabelsX g nodes lab) {u v : Nat}
    (huv : g.Dep u v) (hu : u ∈ nodes) (hv : v ∈ nodes) : key lab u = key lab v := by
  have := (hX.conn u hu v hv).2 (.rel _ _ ⟨hu, hv, huv⟩)
  unfold key
  rw [this]

/-- Blocks of a permuted bucket list. -/
theorem levelParts_bucket {D S : Nat → Nat → Prop} {nodes : List Nat} {lab : List Int}
    (hX : LabelsX g nodes lab) (hnd : nodes.Nodup) (hsub : ∀ u v, D u v → g.Dep u v)
    (hirr : ∀ u, ¬ D u u) {b ns : List Nat} {m : Nat} {f : Nat → Nat} {R : Nat → Nat → Prop}
    (hb : BoundsOk g.n nodes lab b m f) (hperm : ns.Perm (bucket g.n (key lab) nodes))
    (hsl : ∀ t, t < m → (slice ns (b.getD t 0) (b.getD (t + 1) 0)).Perm
      (slice (bucket g.n (key lab) nodes) (b.getD t 0) (b.getD (t + 1) 0)) ∧
      (slice ns (b.getD t 0) (b.getD (t + 1) 0)).Pairwise R)
    (hR : ∀ u v, D u v → S u v → u ∈ nodes → v ∈ nodes → ¬ R v u) : LevelPartsOk D S b ns m := by
  have hkl : ∀ u ∈ nodes, key lab u < g.n := fun u hu => LabelsX.key_lt hX hnd hu
  have hbp : (bucket g.n (key lab) nodes).Perm nodes := bucket_perm hkl
  have hp := hb.toPtr hX hnd
  have hperm' := hperm.trans hbp
  have hfl : ∀ t, t ≤ m → f t ≤ (labelList g.n lab).length := by
    intro t ht; rw [← hb.fm]; exact hb.fmono t m ht (le_refl _)
  refine levelParts_of_blocks (cls := key lab) (c := fun t => cB g.n lab (f t)) (R := R)
    (by rw [hperm'.length_eq]; exact hp) hb.len ?_ ?_ ?_ (fun t ht => (hsl t ht).2) ?_ hirr
  · intro t t' h1 h2
    exact cB_mono (hb.fmono t t' h1 h2) (hfl t' h2)
  · intro t ht u hu
    have := (hsl t ht).1.mem_iff.1 hu
    rw [hb.get t (by omega), hb.get (t + 1) (by omega)] at this
    exact bucket_block this
  · intro u v huv hu hv
    exact LabelsX.dep_key hX (hsub u v huv) (hperm'.mem_iff.1 hu) (hperm'.mem_iff.1 hv)
  · intro u v huv hS hu hv
    exact hR u v huv hS (hperm'.mem_iff.1 hu) (hperm'.mem_iff.1 hv)

/-- Inside a bucket the nodes are in level order. -/
theorem bucket_levels (hO : LevelOk g L ptr set ntl) (lb ub : Nat) (lab : List Int) (a c : Nat) :
    (slice (bucket g.n (key lab) (win ptr set lb ub)) a c).Pairwise
      (fun x y => key lab x = key lab y → ntl.getD x 0 ≤ ntl.getD y 0) := by
  have hall : (bucket g.n (key lab) (win ptr set lb ub)).Pairwise
      (fun x y => key lab x = key lab y → ntl.getD x 0 ≤ ntl.getD y 0) := by
    rw [List.pairwise_iff_getElem]
    intro i j hi hj hij hk
    exact bucket_pairwise (LevelOk.win_sorted hO lb ub) hij (List.getElem?_eq_getElem hi)
      (List.getElem?_eq_getElem hj) hk
  exact hall.sublist ((List.take_sublist _ _).trans (List.drop_sublist _ _))

theorem schedWindow_spec {t : Bool} {D S : Nat → Nat → Prop} (hwf : g.WF) (hO : LevelOk g L ptr set ntl) {d : SchedInp}
    (hd : SInpOk g ptr set ntl d) {post inv : List Nat} (hord : OrderOk g D S d post inv)
    {chunks : List (List Nat)} {cc : Orac} (hT : t = true → SCTotal g L ptr set ntl cc)
    {wm : List Nat} {k lb ub parts : Nat} (hwk : wm[k]? = some lb) (hwk1 : wm[k + 1]? = some ub)
    (hlu : lb < ub) (hul : ub ≤ L) (hkc : d.binPack = true → k < chunks.length)
    (hC : d.binPack = true → ChunkFor g ptr set d.threads lb ub (chunks.getD k []))
    {s : Sched} (hB : Built D S k parts s) (hs : s.nodes.Perm (win ptr set 0 lb)) :
    wpm t (schedWindow false d post inv chunks cc wm k s) (fun s' =>
      s'.levels = s.levels ∧ s'.nodes.Perm (win ptr set 0 ub) ∧
      ∃ parts', Built D S (k + 1) parts' s') := by
  have hW := LevelOk.window hO (lb := lb) (ub := ub) (by omega) hul
  have hnd := hW.nodup
  unfold schedWindow
  have e1 : rd wm k = ok lb := by unfold rd; rw [hwk]
  have e2 : rd wm (k + 1) = ok ub := by unfold rd; rw [hwk1]
  rw [e1, e2]
  simp only [ok_bind]
  rw [windowNodes_spec hO hd.ptr hd.set hd.n (by omega) hul]
  simp only [ok_bind, wpm_bind]
  rw [hd.n, hd.p, hd.i, hd.lvl]
  have hcc := (parallelCC_spec hwf hW (lab := List.replicate g.n (-1)) (by simp)).1
    (cc lb ub (List.replicate g.n (-1)))
  refine wpm_mono (wpm_of_wpl hcc (fun ht => hT ht lb ub (by omega) hul)) ?_
  rintro lab ⟨hlab, hfr⟩
  have hX : LabelsX g (win ptr set lb ub) lab := by
    refine { toLabels := hlab, frame := ?_, sub := fun v hv => ((hW.mem v).1 hv).1 }
    intro v hv hm
    rw [hfr v hm]; exact getD_replicate _ _ _ _ hv
  set nodes := win ptr set lb ub with hnodes
  refine wpm_of_wp (wp_mono (labelCount_spec hX hnd) ?_)
  rintro w ⟨hw1, hw2⟩
  rw [partPtrOf_spec hX hw1 hw2, nodePtrOf_spec hX hnd hw1 hw2]
  simp only [wpm_ok]
  have hkl : ∀ u ∈ nodes, key lab u < g.n := fun u hu => LabelsX.key_lt hX hnd hu
  have hbp : (bucket g.n (key lab) nodes).Perm nodes := bucket_perm hkl
  have hbl : (bucket g.n (key lab) nodes).length = nodes.length := hbp.length_eq
  have hirr : ∀ u, ¬ D u u := fun u h => absurd (LevelOk.dep_lt hwf hO (hord.sub _ _ h)) (lt_irrefl _)
  have hpush : ∀ (b ns : List Nat) (m : Nat), LevelPartsOk D S b ns m → ns.Perm nodes →
      wp (appendLevel s b ns) (fun s' => s'.levels = s.levels ∧
        s'.nodes.Perm (win ptr set 0 ub) ∧ ∃ parts', Built D S (k + 1) parts' s') :=
    fun b ns m hLP hperm => appendLevel_push hwf hO hord.sub (by omega) hul hB hs hLP hperm
  have hblk := fun (b ns : List Nat) (m : Nat) (f : Nat → Nat) (R : Nat → Nat → Prop) hb h1 h2 h3 =>
    levelParts_bucket (S := S) hX hnd hord.sub hirr (b := b) (ns := ns) (m := m) (f := f) (R := R) hb h1 h2 h3
  by_cases hbin : d.binPack = true
  · rw [if_pos hbin]
    obtain ⟨P, reps, hC1, hC2, hC3⟩ := hC hbin
    have hreps := representatives_eq hC2 (hX.representatives hnd)
    have hrl : (repList g.n nodes lab).length = (labelList g.n lab).length := by simp [repList]
    rw [rd_getD [] (hkc hbin)]
    simp only [ok_bind, wpm_bind]
    refine wpm_of_wp (wp_mono (mergeParts_spec (nodes := nodes) hC1 (by omega)) ?_)
    intro b hb
    have hp := hb.toPtr hX hnd
    have hp' : PtrOk b d.threads (bucket g.n (key lab) nodes).length := by rw [hbl]; exact hp
    by_cases hpo : d.postOrder = true
    · rw [if_pos hpo]
      simp only [wpm_bind]
      refine wpm_of_wp (wp_mono (sortPartsPost_spec (hord.invOk hbin hpo) hp' hb.len ?_ ?_) ?_)
      · intro u hu
        exact hX.sub u (hbp.mem_iff.1 hu)
      · rw [hbl]; exact hX.len_le hnd
      · rintro l ⟨hl1, hl2⟩
        refine wpm_of_wp (hpush b l _ (hblk b l _ _ _ hb hl1 hl2 ?_) (hl1.trans hbp))
        intro u v huv _ _ _
        have := hord.topo hbin hpo u v huv
        omega
    · rw [if_neg hpo]
      simp only [wpm_bind]
      refine wpm_of_wp (wp_mono (sortParts_spec hp' hb.len) ?_)
      rintro l ⟨hl1, hl2⟩
      refine wpm_of_wp (hpush b l _ (hblk b l _ _ _ hb hl1 hl2 ?_) (hl1.trans hbp))
      intro u v huv hS _ _
      have := hord.low hbin (by simpa using hpo) u v huv hS
      omega
  · rw [if_neg hbin]
    refine wpm_of_wp (hpush _ _ _ (hblk _ _ _ _
      (fun x y => key lab x = key lab y → ntl.getD x 0 ≤ ntl.getD y 0)
      (boundsOk_parts g.n nodes lab) (.refl _) ?_ ?_) hbp)
    · intro t _
      exact ⟨.refl _, bucket_levels hO lb ub lab _ _⟩
    · intro u v huv _ hu hv hc
      have h1 := hc (LabelsX.dep_key hX (hord.sub _ _ huv) hu hv).symm
      have := LevelOk.dep_lt hwf hO (hord.sub _ _ huv)
      omega

/-! ### All coarse levels -/

/-- The watermarks are increasing from `0` to the number of levels. -/
structure WmOk (L : Nat) (wm : List Nat) : Prop where
  pos : 0 < wm.length
  first : wm.getD 0 0 = 0
  last : wm.getD (wm.length - 1) 0 = L
  strict : ∀ k, k + 1 < wm.length → wm.getD k 0 < wm.getD (k + 1) 0

theorem WmOk.le {wm : List Nat} (h : WmOk L wm) : ∀ j k, k + j + 1 = wm.length → wm.getD k 0 ≤ L := by
  intro j
  induction j with
  | zero =>
    intro k hk
    rw [show k = wm.length - 1 by omega, h.last]
  | succ j ih =>
    intro k hk
    have h1 := ih (k + 1) (by omega)
    have h2 := h.strict k (by omega)
    omega

theorem schedLoop_spec {t : Bool} {D S : Nat → Nat → Prop} (hwf : g.WF) (hO : LevelOk g L ptr set ntl) {d : SchedInp}
    (hd : SInpOk g ptr set ntl d) {post inv : List Nat} (hord : OrderOk g D S d post inv)
    {chunks : List (List Nat)} {cc : Orac} (hT : t = true → SCTotal g L ptr set ntl cc)
    {wm : List Nat} (hw : WmOk L wm) (hkc : d.binPack = true → wm.length ≤ chunks.length + 1)
    (hC : d.binPack = true → ∀ k, k + 1 < wm.length →
      ChunkFor g ptr set d.threads (wm.getD k 0) (wm.getD (k + 1) 0) (chunks.getD k [])) :
    wpm t (forRange 0 (wm.length - 1) (schedWindow false d post inv chunks cc wm)
      ⟨wm.length - 1, [0], [0], []⟩) (fun s => s.levels = wm.length - 1 ∧
      s.Valid g.n (fun u v => D u v ∧ S u v) ∧ s.Together D) := by
  have hpos := hw.pos
  refine forRange_wpm (fun k (s : Sched) => s.levels = wm.length - 1 ∧
    s.nodes.Perm (win ptr set 0 (wm.getD k 0)) ∧ ∃ parts, Built D S k parts s)
    (Nat.zero_le _) ?_ ?_ ?_
  · refine ⟨rfl, ?_, 0, Built.empty _ _ _⟩
    rw [hw.first, win_self]
  · rintro k s _ hk ⟨h1, h2, parts, h3⟩
    have hs := hw.strict k (by omega)
    have hle := hw.le (wm.length - (k + 1) - 1) (k + 1) (by omega)
    refine wpm_mono (schedWindow_spec hwf hO hd hord hT (getElem?_getD 0 (by omega))
      (getElem?_getD 0 (by omega)) hs hle (fun hb => by have := hkc hb; omega)
      (fun hb => hC hb k (by omega)) h3 h2) ?_
    rintro s' ⟨a1, a2, a3⟩
    exact ⟨a1.trans h1, a2, a3⟩
  · rintro s ⟨h1, h2, parts, h3⟩
    refine ⟨h1, h3.valid h1 ?_, h3.together h1⟩
    rw [hw.last] at h2
    refine h2.trans ?_
    unfold win
    rw [hO.ptr0, hO.ptrL, slice_full (by rw [hO.setLen])]
    exact hO.perm

/-- `computeSchedule` on the output of the window loop. -/
theorem computeSchedule_spec {t : Bool} {D S : Nat → Nat → Prop} (hwf : g.WF) (hO : LevelOk g L ptr set ntl)
    {d : SchedInp} (hd : SInpOk g ptr set ntl d)
    (hsub : ∀ u v, D u v → g.Dep u v) (hlow : d.binPack = true → d.postOrder = false → ∀ u v, D u v → S u v → u < v)
    (hpost : d.postOrder = true → g.DiagFirst ∧ g.OneDiag)
    {chunks : List (List Nat)} {cc : Orac} (hT : t = true → SCTotal g L ptr set ntl cc)
    {wm : List Nat} (hw : WmOk L wm) (hkc : d.binPack = true → wm.length ≤ chunks.length + 1)
    (hC : d.binPack = true → ∀ k, k + 1 < wm.length →
      ChunkFor g ptr set d.threads (wm.getD k 0) (wm.getD (k + 1) 0) (chunks.getD k [])) :
    wpm t (computeSchedule false d wm chunks cc) (fun s => s.levels = wm.length - 1 ∧
      s.Valid g.n (fun u v => D u v ∧ S u v) ∧ s.Together D) := by
  unfold computeSchedule
  have hne : wm ≠ [] := by
    rintro rfl
    exact absurd hw.pos (by simp)
  by_cases hp : d.postOrder = true
  · rw [if_pos hp]
    obtain ⟨hf, ho⟩ := hpost hp
    have hac : g.Acyclic := by
      intro v hv
      have : ∀ a b, Relation.TransGen g.Dep a b → ntl.getD a 0 < ntl.getD b 0 := by
        intro a b h
        induction h with
        | single h => exact LevelOk.dep_lt hwf hO h
        | tail _ h ih => exact lt_trans ih (LevelOk.dep_lt hwf hO h)
      exact absurd (this v v hv) (lt_irrefl _)
    simp only [wpm_bind]
    rw [hd.n, hd.p, hd.i]
    refine wpm_of_wp (wp_mono (PostOrder.computePostOrder_spec hwf hf ho hac) ?_)
    intro post hpo
    refine wpm_of_wp (wp_mono (postInv_spec hpo.perm) ?_)
    intro inv hinv
    simp only [wpm_ok]
    rw [if_neg hne]
    refine schedLoop_spec hwf hO hd ⟨hsub, fun h1 h2 => hlow h1 h2, fun _ _ => hinv, ?_⟩ hT hw hkc hC
    intro _ _ u v huv
    have hu := hwf.dep_lt (hsub u v huv)
    exact hpo.topo u v _ _ (hsub u v huv) (hinv.right u hu.1) (hinv.right v hu.2)
  · rw [if_neg hp]
    simp only [ok_bind]
    rw [if_neg hne]
    exact schedLoop_spec hwf hO hd ⟨hsub, fun h1 h2 => hlow h1 h2, fun _ h => absurd h hp,
      fun _ h => absurd h hp⟩ hT hw hkc hC

end Verif.Hdagg
