import Verif.Model.Hdagg
import Verif.Proof.CompCount
import Verif.Proof.LevelSetOk
import Verif.WPM

/-! # `computeCC` -/

namespace Verif.Hdagg
open Res CC Csc LevelSet

variable {g : Csc}

theorem readSlice_eq {l : List Nat} {a b : Nat} (hab : a ≤ b) (hb : b ≤ l.length) :
    readSlice l a b = ok (slice l a b) := by
  unfold readSlice
  obtain ⟨r, h1, h2⟩ := wp_iff.1 (forRange_wp (fun k acc => acc = slice l a k) (f := fun k acc => do
    let v ← rd l k
    ok (acc ++ [v])) (s := []) hab (by rw [slice_self]) (by
      rintro k acc h1 h2 rfl
      rw [rd_eq (by omega)]
      simp only [ok_bind, wp_ok]
      rw [slice_succ h1 (List.getElem?_eq_getElem (by omega))]))
  rw [h1, h2]

/-- The nodes of the levels `lb .. ub-1`. -/
def win (ptr set : List Nat) (lb ub : Nat) : List Nat := slice set (ptr.getD lb 0) (ptr.getD ub 0)

section
variable {L : Nat} {ptr set ntl : List Nat}

theorem LevelOk.ptr_mono (h : LevelOk g L ptr set ntl) {a b : Nat} (hab : a ≤ b) (hb : b ≤ L) :
    ptr.getD a 0 ≤ ptr.getD b 0 := by
  induction b with
  | zero => have : a = 0 := by omega
            rw [this]
  | succ b ih =>
    by_cases hab' : a ≤ b
    · have := h.strict b (by omega)
      have := ih hab' (by omega)
      omega
    · have : a = b + 1 := by omega
      rw [this]

theorem LevelOk.ptr_le (h : LevelOk g L ptr set ntl) {a : Nat} (hb : a ≤ L) :
    ptr.getD a 0 ≤ set.length := by
  rw [h.setLen, ← h.ptrL]; exact LevelOk.ptr_mono h hb (le_refl _)

theorem LevelOk.set_nodup (h : LevelOk g L ptr set ntl) : set.Nodup :=
  h.perm.nodup_iff.2 List.nodup_range

theorem LevelOk.win_nodup (h : LevelOk g L ptr set ntl) (lb ub : Nat) :
    (win ptr set lb ub).Nodup :=
  (LevelOk.set_nodup h).sublist ((List.take_sublist _ _).trans (List.drop_sublist _ _))

theorem LevelOk.set_lt (h : LevelOk g L ptr set ntl) {v : Nat} (hv : v ∈ set) : v < g.n :=
  List.mem_range.1 (h.perm.mem_iff.1 hv)

/-- Level of the node at a position. -/
theorem LevelOk.level_at (h : LevelOk g L ptr set ntl) {k v : Nat} (hk : set[k]? = some v) :
    v < g.n ∧ ntl.getD v 0 < L ∧ ptr.getD (ntl.getD v 0) 0 ≤ k ∧ k < ptr.getD (ntl.getD v 0 + 1) 0 := by
  have hk' := (List.getElem?_eq_some_iff.1 hk).1
  have hkn : k < ptr.getD L 0 := by rw [h.ptrL, ← h.setLen]; exact hk'
  obtain ⟨m, h1, h2, h3⟩ := exists_block h.ptr0 hkn
  have := h.lvl m k h1 h2 h3
  rw [List.getD_eq_getElem?_getD (l := set), hk] at this
  simp only [Option.getD_some] at this
  rw [this]
  exact ⟨LevelOk.set_lt h (List.mem_of_getElem? hk), h1, h2, h3⟩

theorem LevelOk.mem_win (h : LevelOk g L ptr set ntl) {lb ub : Nat} (hlu : lb ≤ ub) (hub : ub ≤ L)
    (v : Nat) : v ∈ win ptr set lb ub ↔ v < g.n ∧ lb ≤ ntl.getD v 0 ∧ ntl.getD v 0 < ub := by
  unfold win
  rw [mem_slice]
  constructor
  · rintro ⟨k, h1, h2, h3⟩
    obtain ⟨h4, h5, h6, h7⟩ := LevelOk.level_at h h3
    refine ⟨h4, ?_, ?_⟩
    · by_contra hc
      have := LevelOk.ptr_mono h (a := ntl.getD v 0 + 1) (b := lb) (by omega) (by omega)
      omega
    · by_contra hc
      have := LevelOk.ptr_mono h (a := ub) (b := ntl.getD v 0) (by omega) (by omega)
      omega
  · rintro ⟨h1, h2, h3⟩
    have hv : v ∈ set := h.perm.mem_iff.2 (List.mem_range.2 h1)
    obtain ⟨k, hk⟩ := List.mem_iff_getElem?.1 hv
    obtain ⟨h4, h5, h6, h7⟩ := LevelOk.level_at h hk
    have h8 := LevelOk.ptr_mono h (a := lb) (b := ntl.getD v 0) h2 (by omega)
    have h9 := LevelOk.ptr_mono h (a := ntl.getD v 0 + 1) (b := ub) (by omega) hub
    exact ⟨k, by omega, by omega, hk⟩

theorem LevelOk.window (h : LevelOk g L ptr set ntl) {lb ub : Nat} (hlu : lb ≤ ub)
    (hub : ub ≤ L) : Window g ntl lb ub (win ptr set lb ub) :=
  ⟨h.ntlLen, LevelOk.win_nodup h lb ub, LevelOk.mem_win h hlu hub⟩

/-- Dependences go to later levels. -/
theorem LevelOk.dep_lt (hwf : g.WF) (h : LevelOk g L ptr set ntl) {u v : Nat} (hd : g.Dep u v) :
    ntl.getD u 0 < ntl.getD v 0 := by
  have hu := hwf.dep_lt hd
  have h1 := (h.depth u hu.1).1
  have h2 := (h.depth v hu.2).2
  by_contra hc
  exact h2 ((PathTo.snoc h1 hd).le hwf (by omega))

theorem win_append (h : LevelOk g L ptr set ntl) {a b c : Nat} (hab : a ≤ b) (hbc : b ≤ c)
    (hc : c ≤ L) : win ptr set a c = win ptr set a b ++ win ptr set b c := by
  unfold win
  rw [slice_append (LevelOk.ptr_mono h hab (by omega)) (LevelOk.ptr_mono h hbc hc)]

theorem win_length (h : LevelOk g L ptr set ntl) {a b : Nat} (hb : b ≤ L) :
    (win ptr set a b).length = ptr.getD b 0 - ptr.getD a 0 :=
  slice_length (LevelOk.ptr_le h hb)

end

/-! ### The loops after the label computation -/

theorem partExist_spec {n : Nat} {lab : List Int} (hr : ∀ l ∈ lab, -1 ≤ l ∧ l < n) :
    wp (partExist n lab) (fun e => e.length = n ∧ ∀ i, i < n → e.getD i false
      = decide ((i : Int) ∈ lab)) := by
  unfold partExist
  have h := forEach_wp (fun (pre : List Int) (e : List Bool) => e.length = n ∧
    ∀ i, i < n → e.getD i false = decide ((i : Int) ∈ pre)) (f := fun l e =>
      if l = -1 then ok e else wrZ e l true) lab [] (List.replicate n false) ?_ ?_
  · simpa using h
  · refine ⟨by simp, fun i hi => ?_⟩
    rw [getD_replicate _ _ _ _ hi]; simp
  · rintro p a q e hpq ⟨h1, h2⟩
    have ha : a ∈ lab := by
      rw [List.nil_append] at hpq; rw [hpq]; simp
    obtain ⟨h3, h4⟩ := hr a ha
    by_cases hm : a = -1
    · rw [if_pos hm]
      simp only [wp_ok]
      refine ⟨h1, fun i hi => ?_⟩
      rw [h2 i hi, hm]
      simp
    · rw [if_neg hm]
      unfold wrZ
      rw [if_neg (by omega), wr_eq (by omega)]
      simp only [wp_ok]
      refine ⟨by simpa using h1, fun i hi => ?_⟩
      rw [getD_set, h1]
      by_cases he : a.toNat = i
      · rw [if_pos ⟨he, by omega⟩]
        have : (i : Int) = a := by omega
        simp [this]
      · rw [if_neg (by tauto), h2 i hi]
        have : (i : Int) ≠ a := by omega
        simp [this]

theorem partMap_spec {n : Nat} {p : Nat → Bool} {exist : List Bool} (hl : exist.length = n)
    (hp : ∀ i, i < n → exist.getD i false = p i) :
    wp (partMap n exist) (fun r => r.1.length = n ∧ r.2 = ((List.range n).filter p).length ∧
      ∀ i, i < n → p i = true → r.1.getD i 0 = ((List.range i).filter p).length) := by
  unfold partMap
  refine forRange_wp' (fun k (r : List Nat × Nat) => r.1.length = n ∧
    r.2 = ((List.range k).filter p).length ∧
      ∀ i, i < k → p i = true → r.1.getD i 0 = ((List.range i).filter p).length)
    (Nat.zero_le _) ⟨by simp, by simp, by intro i hi; omega⟩ ?_ (fun _ h => h)
  rintro k ⟨m, c⟩ _ hk ⟨h1, h2, h3⟩
  simp only at h1 h2 h3
  rw [rd_getD false (by omega), hp k hk]
  simp only [ok_bind]
  by_cases hpk : p k = true
  · rw [if_pos hpk, wr_eq (by omega)]
    simp only [ok_bind, wp_ok]
    refine ⟨by simpa using h1, ?_, ?_⟩
    · rw [List.range_succ, List.filter_append]; simp [hpk, h2]
    · intro i hi hpi
      rw [getD_set, h1]
      by_cases he : k = i
      · rw [if_pos ⟨he, by omega⟩, ← he]; exact h2
      · rw [if_neg (by tauto)]; exact h3 i (by omega) hpi
  · rw [if_neg hpk]
    simp only [wp_ok]
    refine ⟨h1, ?_, ?_⟩
    · rw [List.range_succ, List.filter_append]; simp [hpk, h2]
    · intro i hi hpi
      by_cases he : i = k
      · subst he; exact absurd hpi hpk
      · exact h3 i (by omega) hpi

variable {K : Type} [AddCommMonoid K]

theorem partCosts_spec {n : Nat} {lab : List Int} {map : List Nat} {cost : List K}
    {nodes : List Nat} {q : Nat → Nat} (hlab : lab.length = n) (hc : cost.length = n)
    (hm : map.length = n) (hn : ∀ u ∈ nodes, u < n ∧ 0 ≤ lab.getD u 0 ∧ lab.getD u 0 < n ∧
      map.getD (lab.getD u 0).toNat 0 = q u ∧ q u < n) :
    wp (partCosts lab map cost nodes (List.replicate n 0)) (fun r => r.1.length = n ∧
      (∀ k, k < n → r.1.getD k 0
        = ((nodes.filter fun u => q u = k).map fun u => cost.getD u 0).sum) ∧
      r.2 = (nodes.map fun u => cost.getD u 0).sum) := by
  unfold partCosts
  refine wp_mono (forEach_wp (fun (pre : List Nat) (r : List K × K) => r.1.length = n ∧
      (∀ k, k < n → r.1.getD k 0
        = ((pre.filter fun u => q u = k).map fun u => cost.getD u 0).sum) ∧
      r.2 = (pre.map fun u => cost.getD u 0).sum) nodes [] _ ?_ ?_) ?_
  · refine ⟨by simp, fun k hk => ?_, by simp⟩
    rw [getD_replicate _ _ _ _ hk]; simp
  · rintro pre a post ⟨pc, tot⟩ hs ⟨h1, h2, h3⟩
    simp only at h1 h2 h3
    have ha : a ∈ nodes := by
      rw [List.nil_append] at hs; rw [hs]; simp
    obtain ⟨g1, g2, g3, g4, g5⟩ := hn a ha
    rw [rd_getD 0 (by omega)]
    simp only [ok_bind]
    unfold rdZ
    rw [if_neg (by omega), rd_getD 0 (by omega), g4]
    simp only [ok_bind]
    rw [rd_getD 0 (by omega), rd_getD 0 (by omega)]
    simp only [ok_bind]
    rw [wr_eq (by omega)]
    simp only [ok_bind, wp_ok]
    refine ⟨by simpa using h1, fun k hk => ?_, ?_⟩
    · rw [getD_set, h1, List.filter_append, List.map_append, List.sum_append]
      by_cases he : q a = k
      · rw [if_pos ⟨he, g5⟩, he, h2 k hk]
        simp [he]
      · rw [if_neg (by tauto), h2 k hk]
        simp [he]
    · rw [List.map_append, List.sum_append, h3]; simp
  · intro r hr
    simpa using hr

/-- Everything `computeCC` guarantees for the window `nodes`. -/
structure CCOk (g : Csc) (nodes : List Nat) (cost : List K) (o : CCOut K) : Prop where
  labels : LabelsX g nodes o.lab
  costLen : o.partCost.length = g.n
  comps : ∃ reps, g.Representatives nodes reps ∧ reps.length = o.partCnt ∧
    ∀ (q r : Nat), reps[q]? = some r → o.partCost[q]? = some (g.compCost nodes cost r)
  total : o.total = (nodes.map fun u => cost.getD u 0).sum

theorem labels_of_labelsX {nodes : List Nat} {lab : List Int} (h : Labels g nodes lab)
    (hs : ∀ v ∈ nodes, v < g.n) (hf : ∀ v, v < g.n → v ∉ nodes → lab.getD v 0 = -1) :
    LabelsX g nodes lab := { toLabels := h, frame := hf, sub := hs }

theorem ccPost_spec {nodes : List Nat} {lab : List Int} {cost : List K} (hn : nodes.Nodup)
    (hL : LabelsX g nodes lab) (hc : cost.length = g.n) (debug : Bool) (hne : nodes ≠ []) :
    wp (do
      let exist ← partExist g.n lab
      let (map, cnt) ← partMap g.n exist
      if debug ∧ nodes = [] then exn else do
      let (partCost, total) ← partCosts lab map cost nodes (List.replicate g.n 0)
      ok (⟨lab, cnt, partCost, total⟩ : CCOut K)) (CCOk g nodes cost) := by
  have hlen := hL.len_le hn
  have hr : ∀ l ∈ lab, -1 ≤ l ∧ l < g.n := by
    intro l hl
    obtain ⟨v, hv, rfl⟩ := List.mem_iff_getElem.1 hl
    have e : lab[v] = lab.getD v 0 := by
      rw [List.getD_eq_getElem?_getD, List.getElem?_eq_getElem hv]; rfl
    rw [e]
    by_cases hm : v ∈ nodes
    · have := hL.label_nonneg hm; omega
    · have := hL.frame v (by rw [← hL.len]; exact hv) hm; omega
  simp only [wp_bind]
  refine wp_mono (partExist_spec hr) ?_
  rintro e ⟨he1, he2⟩
  refine wp_mono (partMap_spec (p := fun i => decide ((i : Int) ∈ lab)) he1 he2) ?_
  rintro ⟨map, cnt⟩ ⟨hm1, hm2, hm3⟩
  simp only at hm1 hm2 hm3
  dsimp only
  rw [if_neg (by tauto)]
  simp only [wp_bind]
  have hq : ∀ u ∈ nodes, u < g.n ∧ 0 ≤ lab.getD u 0 ∧ lab.getD u 0 < g.n ∧
      map.getD (lab.getD u 0).toNat 0 = (labelList (lab.getD u 0).toNat lab).length ∧
      (labelList (lab.getD u 0).toNat lab).length < g.n := by
    intro u hu
    have h1 := hL.label_nonneg hu
    refine ⟨hL.sub u hu, h1.1, by omega, ?_, ?_⟩
    · refine hm3 _ (by omega) ?_
      simp only [decide_eq_true_eq]
      exact hL.mem_lab.2 ⟨u, hu, by omega⟩
    · have : (labelList (lab.getD u 0).toNat lab).length ≤ (lab.getD u 0).toNat := by
        refine (List.length_filter_le _ _).trans ?_
        simp
      omega
  refine wp_mono (partCosts_spec hL.len hc hm1 hq) ?_
  rintro ⟨pc, tot⟩ ⟨hp1, hp2, hp3⟩
  simp only at hp1 hp2 hp3
  simp only [wp_ok]
  refine ⟨hL, hp1, ⟨repList g.n nodes lab, hL.representatives hn, ?_, ?_⟩, hp3⟩
  · show (repList g.n nodes lab).length = cnt
    rw [hm2]; simp [repList, labelList]
  · intro q r hqr
    have hql : q < (labelList g.n lab).length := by
      have := (List.getElem?_eq_some_iff.1 hqr).1
      simpa [repList] using this
    have hqn : q < g.n := by
      have : (labelList g.n lab).length ≤ g.n := by
        refine (List.length_filter_le _ _).trans ?_
        simp
      omega
    show pc[q]? = _
    have e : pc[q]? = some (pc.getD q 0) := by
      rw [List.getD_eq_getElem?_getD, List.getElem?_eq_getElem (by omega)]; rfl
    rw [e, hp2 q hqn]
    congr 1
    unfold Csc.compCost
    congr 2
    apply List.filter_congr
    intro u hu
    have h1 := hL.label_nonneg hu
    -- r is the node with the label of rank q
    have hqr' := hqr
    unfold repList at hqr'
    rw [List.getElem?_map, Option.map_eq_some_iff] at hqr'
    obtain ⟨i, hi, hir⟩ := hqr'
    have hmi := List.mem_of_getElem? hi
    simp only [labelList, List.mem_filter, decide_eq_true_eq, List.mem_range] at hmi
    obtain ⟨r1, r2, r3⟩ := hL.rep_label hmi.2
    rw [hir] at r2 r3
    rw [decide_eq_decide, ← hL.conn r r2 u hu, r3]
    have hu' : ((lab.getD u 0).toNat : Int) ∈ lab := hL.mem_lab.2 ⟨u, hu, by omega⟩
    have hrank : (labelList g.n lab)[(labelList (lab.getD u 0).toNat lab).length]?
        = some (lab.getD u 0).toNat :=
      filter_range_rank (fun i => decide ((i : Int) ∈ lab)) (by omega) (by simpa using hu')
    constructor
    · intro h2
      rw [h2, hi, Option.some.injEq] at hrank
      omega
    · intro h2
      have h3 : (lab.getD u 0).toNat = i := by omega
      rw [h3] at hrank ⊢
      exact nodup_getElem?_inj (List.nodup_range.filter _) hrank hi

/-! ### A single level -/

theorem conn_of_no_dep {W : Nat → Prop} (h : ∀ u v, W u → W v → ¬ g.Dep u v) {u v : Nat} :
    g.Connected W u v ↔ u = v := by
  constructor
  · intro hc
    induction hc with
    | rel u v hE => exact absurd hE.2.2 (h u v hE.1 hE.2.1)
    | refl => rfl
    | symm _ _ _ ih => exact ih.symm
    | trans _ _ _ _ _ h1 h2 => exact h1.trans h2
  · rintro rfl; exact .refl _

theorem ccSingle_spec {set : List Nat} {a c : Nat} {lab : List Int} {cost : List K}
    (hac : a ≤ c) (hcl : c ≤ set.length)
    (hn : (slice set a c).Nodup) (hsub : ∀ v ∈ slice set a c, v < g.n)
    (hdep : ∀ u v, u ∈ slice set a c → v ∈ slice set a c → ¬ g.Dep u v)
    (hlab : lab.length = g.n) (hfr : ∀ v, v < g.n → v ∉ slice set a c → lab.getD v 0 = -1)
    (hc : cost.length = g.n) :
    wp (ccSingle g.n a c set lab cost) (CCOk g (slice set a c) cost) := by
  unfold ccSingle
  have hlen : c - a ≤ g.n := by
    have hs : slice set a c ⊆ List.range g.n := fun v hv => List.mem_range.2 (hsub v hv)
    have := (List.subperm_of_subset hn hs).length_le
    rw [slice_length hcl, List.length_range] at this
    exact this
  have hsl : (slice set a c).length = c - a := slice_length hcl
  have hget : ∀ k, k < c - a → (slice set a c)[k]? = some (set.getD (a + k) 0) := by
    intro k hk
    rw [getElem?_slice, if_pos (by omega), List.getD_eq_getElem?_getD,
      List.getElem?_eq_getElem (by omega)]; rfl
  refine forRange_wp' (fun k (o : CCOut K) => o.lab.length = g.n ∧ o.partCnt = c - a ∧
      o.partCost.length = g.n ∧
      (∀ j, j < k - a → o.lab.getD (set.getD (a + j) 0) 0 = j ∧
        o.partCost.getD j 0 = cost.getD (set.getD (a + j) 0) 0) ∧
      (∀ v, v < g.n → v ∉ slice set a k → o.lab.getD v 0 = lab.getD v 0) ∧
      o.total = ((slice set a k).map fun u => cost.getD u 0).sum) hac
    ⟨hlab, rfl, by simp, by intro j hj; omega, fun _ _ _ => rfl, by rw [slice_self]; simp⟩ ?_ ?_
  · rintro k ⟨lab', pc, cst, tot⟩ hak hkc ⟨h1, h2, h3, h4, h5, h6⟩
    simp only at h1 h2 h3 h4 h5 h6
    have hk : set[k]? = some (set.getD k 0) := by
      rw [List.getD_eq_getElem?_getD, List.getElem?_eq_getElem (by omega)]; rfl
    have hmem : set.getD k 0 ∈ slice set a c := mem_slice.2 ⟨k, hak, hkc, hk⟩
    have hv := hsub _ hmem
    rw [rd_getD 0 (by omega)]
    simp only [ok_bind]
    rw [wr_eq (by omega)]
    simp only [ok_bind]
    rw [rd_getD 0 (by omega)]
    simp only [ok_bind]
    rw [wr_eq (by omega)]
    simp only [ok_bind, wp_ok]
    refine ⟨by simpa using h1, h2, by simpa using h3, ?_, ?_, ?_⟩
    · intro j hj
      rw [getD_set, getD_set, h1, h3]
      by_cases hjk : j = k - a
      · subst hjk
        rw [show a + (k - a) = k by omega, if_pos ⟨rfl, hv⟩, if_pos ⟨rfl, by omega⟩]
        exact ⟨rfl, rfl⟩
      · have hne : set.getD k 0 ≠ set.getD (a + j) 0 := by
          intro he
          have e1 := hget j (by omega)
          have e2 := hget (k - a) (by omega)
          rw [show a + (k - a) = k by omega] at e2
          rw [← he] at e1
          exact hjk (nodup_getElem?_inj hn e1 e2)
        rw [if_neg (by tauto), if_neg (by omega)]
        exact h4 j (by omega)
    · intro v hv' hnm
      rw [slice_succ hak hk] at hnm
      simp only [List.mem_append, List.mem_singleton, not_or] at hnm
      rw [getD_set, if_neg (by tauto)]
      exact h5 v hv' hnm.1
    · rw [slice_succ hak hk, List.map_append, List.sum_append, h6]; simp
  · rintro ⟨lab', pc, cst, tot⟩ ⟨h1, h2, h3, h4, h5, h6⟩
    simp only at h1 h2 h3 h4 h5 h6
    have hnd : ∀ k, k < c - a → (slice set a c).getD k 0 = set.getD (a + k) 0 := by
      intro k hk
      rw [List.getD_eq_getElem?_getD, hget k hk]; rfl
    have hL : LabelsX g (slice set a c) lab' := by
      refine { len := h1, range := ?_, root := ?_, conn := ?_, frame := ?_, sub := hsub }
      · intro k hk
        rw [hsl] at hk
        rw [hnd k hk, (h4 k hk).1]; omega
      · intro k hk
        rw [hsl] at hk
        rw [hnd k hk, (h4 k hk).1, Int.toNat_natCast, hnd k hk, (h4 k hk).1]
      · intro u hu v hv
        rw [conn_of_no_dep hdep]
        obtain ⟨i, hi⟩ := List.mem_iff_getElem?.1 hu
        obtain ⟨j, hj⟩ := List.mem_iff_getElem?.1 hv
        have hi' := (List.getElem?_eq_some_iff.1 hi).1
        have hj' := (List.getElem?_eq_some_iff.1 hj).1
        rw [hsl] at hi' hj'
        rw [hget i hi', Option.some.injEq] at hi
        rw [hget j hj', Option.some.injEq] at hj
        rw [← hi, ← hj, (h4 i hi').1, (h4 j hj').1]
        constructor
        · intro h; have : i = j := by exact_mod_cast h
          rw [this]
        · intro h
          have e1 := hget i hi'
          rw [h] at e1
          have := nodup_getElem?_inj hn e1 (hget j hj')
          rw [this]
      · intro v hv hm
        rw [h5 v hv hm]; exact hfr v hv hm
    refine ⟨hL, h3, ⟨slice set a c, ⟨fun r hr => hr, fun u hu => ⟨u, hu, .refl _⟩, ?_⟩,
      hsl.trans h2.symm, ?_⟩, h6⟩
    · intro q q' r r' hq hq' hcn
      rw [conn_of_no_dep hdep] at hcn
      rw [← hcn] at hq'
      exact nodup_getElem?_inj hn hq hq'
    · intro q r hq
      have hq' := (List.getElem?_eq_some_iff.1 hq).1
      rw [hsl] at hq'
      have hr : r ∈ slice set a c := List.mem_of_getElem? hq
      rw [hget q hq', Option.some.injEq] at hq
      show cst[q]? = _
      have e : cst[q]? = some (cst.getD q 0) := by
        rw [List.getD_eq_getElem?_getD, List.getElem?_eq_getElem (by omega)]; rfl
      rw [e, (h4 q hq').2, hq]
      congr 1
      unfold Csc.compCost
      classical
      have hf : (slice set a c).filter (fun u => decide (g.Connected (· ∈ slice set a c) r u))
          = (slice set a c).filter (fun u => u = r) := by
        apply List.filter_congr
        intro u _
        rw [decide_eq_decide, conn_of_no_dep hdep]
        exact eq_comm
      have hf2 : (slice set a c).filter (fun u => u = r) = [r] := by
        have := List.filter_eq (l := slice set a c) r
        rw [List.count_eq_one_of_mem hn hr] at this
        simpa using this
      have : (slice set a c).filter (fun u => @decide (g.Connected (· ∈ slice set a c) r u)
          (Classical.propDecidable _)) = [r] := by
        rw [← hf2, ← hf]
      rw [this]
      simp

/-! ### The whole call -/

theorem labels_nil {lab : List Int} (h : lab.length = g.n) : Labels g [] lab :=
  ⟨h, by simp, by simp, by simp⟩

theorem win_self (ptr set : List Nat) (a : Nat) : win ptr set a a = [] := slice_self _ _

section
variable {L : Nat} {ptr set ntl : List Nat}

/-- The state of the labels between two calls: the window `lb .. cut-1` is labelled. -/
structure LabState (g : Csc) (ptr set : List Nat) (lb cut : Nat) (lab : List Int) : Prop where
  labels : Labels g (win ptr set lb cut) lab
  frame : ∀ v, v < g.n → v ∉ win ptr set lb cut → lab.getD v 0 = -1

theorem LabState.init (ptr set : List Nat) (lb : Nat) :
    LabState g ptr set lb lb (List.replicate g.n (-1)) := by
  refine ⟨by rw [win_self]; exact labels_nil (by simp), ?_⟩
  intro v hv _
  exact getD_replicate _ _ _ _ hv

theorem computeCC_spec (hwf : g.WF) (hO : LevelOk g L ptr set ntl) {lb cut ub : Nat}
    (h1 : lb ≤ cut) (h2 : cut ≤ ub) (h3 : lb < ub) (h4 : ub ≤ L) {lab : List Int}
    (hS : LabState g ptr set lb cut lab) {cost : List K} (hc : cost.length = g.n)
    (debug : Bool) :
    (∀ sch, wpl (computeCC debug lb cut ub g.n g.p g.i ptr set ntl lab cost sch)
      (CCOk g (win ptr set lb ub) cost)) ∧
    ∃ sch, computeCC debug lb cut ub g.n g.p g.i ptr set ntl lab cost sch ≠ nofuel := by
  have hW := LevelOk.window hO (lb := lb) (ub := ub) (by omega) h4
  have hsub : ∀ v ∈ win ptr set lb ub, v < g.n := fun v hv => ((hW.mem v).1 hv).1
  have hp := hO.ptrLen
  have hLn := hO.lN
  have hr1 : rd ptr lb = ok (ptr.getD lb 0) := rd_getD 0 (by omega)
  have hr2 : rd ptr cut = ok (ptr.getD cut 0) := rd_getD 0 (by omega)
  have hr3 : rd ptr ub = ok (ptr.getD ub 0) := rd_getD 0 (by omega)
  have hm1 := LevelOk.ptr_mono hO (a := lb) (b := ub) (by omega) h4
  have hle := LevelOk.ptr_le hO h4
  by_cases hub : ub = lb + 1
  · have hs : wp (ccSingle g.n (ptr.getD lb 0) (ptr.getD ub 0) set lab cost)
        (CCOk g (win ptr set lb ub) cost) := by
      refine ccSingle_spec hm1 hle hW.nodup hsub ?_ hS.labels.len ?_ hc
      · intro u v hu hv hd
        have h5 := (hW.mem u).1 hu
        have h6 := (hW.mem v).1 hv
        have := LevelOk.dep_lt hwf hO hd
        omega
      · intro v hv hn
        apply hS.frame v hv
        intro hm
        apply hn
        change v ∈ win ptr set lb ub
        rw [win_append hO h1 h2 h4]
        exact List.mem_append_left _ hm
    have he : ∀ sch, computeCC debug lb cut ub g.n g.p g.i ptr set ntl lab cost sch
        = ccSingle g.n (ptr.getD lb 0) (ptr.getD ub 0) set lab cost := by
      intro sch
      unfold computeCC
      rw [hr1, hr2, hr3]
      simp only [ok_bind]
      rw [if_pos hub]
    refine ⟨fun sch => by rw [he]; exact wpl_of_wp hs, [], ?_⟩
    rw [he]
    obtain ⟨o, ho, _⟩ := wp_iff.1 hs
    rw [ho]; simp
  · have he : ∀ sch, computeCC debug lb cut ub g.n g.p g.i ptr set ntl lab cost sch
        = ccMulti debug lb ub g.n g.p g.i ntl (win ptr set lb ub)
            (ptr.getD cut 0 - ptr.getD lb 0) lab cost sch := by
      intro sch
      unfold computeCC
      rw [hr1, hr2, hr3]
      simp only [ok_bind]
      rw [if_neg hub, readSlice_eq hm1 hle]
      rfl
    have hsplit := win_append hO h1 h2 h4
    have hlen : ptr.getD cut 0 - ptr.getD lb 0 = (win ptr set lb cut).length :=
      (win_length hO (by omega)).symm
    have hnew : ∀ v ∈ win ptr set cut ub, lab.getD v 0 = -1 := by
      intro v hv
      have h5 := (LevelOk.mem_win hO h2 h4 v).1 hv
      apply hS.frame v h5.1
      intro hm
      have h6 := (LevelOk.mem_win hO h1 (by omega) v).1 hm
      omega
    have hW' := hW
    rw [hsplit] at hW'
    have hI := incrementalCC_spec hwf hW' hS.labels hnew
    have hne : win ptr set lb ub ≠ [] := by
      intro h
      have h5 := win_length hO (a := lb) h4
      rw [h] at h5
      have h6 := hO.strict lb (by omega)
      have h7 := LevelOk.ptr_mono hO (a := lb + 1) (b := ub) (by omega) h4
      simp only [List.length_nil] at h5
      omega
    have hpost : ∀ lab', (Labels g (win ptr set lb cut ++ win ptr set cut ub) lab' ∧
        ∀ v, v ∉ win ptr set lb cut ++ win ptr set cut ub → lab'.getD v 0 = lab.getD v 0) →
        LabelsX g (win ptr set lb ub) lab' := by
      rintro lab' ⟨h5, h6⟩
      rw [← hsplit] at h5 h6
      refine labels_of_labelsX h5 hsub ?_
      intro v hv hm
      rw [h6 v hm]
      apply hS.frame v hv
      intro hm'
      apply hm
      rw [hsplit]
      exact List.mem_append_left _ hm'
    constructor
    · intro sch
      rw [he sch, hlen]
      unfold ccMulti
      rw [wpl_bind]
      have h5 := hI.1 sch
      rw [← hsplit] at h5
      refine wpl_mono h5 ?_
      intro lab' hl
      rw [hsplit] at hl
      exact wpl_of_wp (ccPost_spec hW.nodup (hpost lab' hl) hc debug hne)
    · obtain ⟨sch, lab', hl⟩ := hI.2
      have h5 := hI.1 sch
      rw [hl] at h5
      simp only [wpl_ok] at h5
      obtain ⟨o, ho, _⟩ := wp_iff.1 (ccPost_spec hW.nodup (hpost lab' h5) hc debug hne)
      refine ⟨sch, ?_⟩
      rw [he sch, hlen]
      unfold ccMulti
      rw [← hsplit] at hl
      rw [hl, ok_bind, ho]
      simp

end
end Verif.Hdagg
