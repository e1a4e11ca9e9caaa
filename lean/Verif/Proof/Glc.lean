import Verif.Model.Glc
import Verif.Proof.Hdagg

/-! # `GLC_V2` and `build_coarsened_level_parallel` -/

namespace Verif.Hdagg
open Res CC Csc LevelSet

variable {g : Csc} {L : Nat} {ptr set ntl : List Nat}

section
variable {K : Type} [AddCommGroup K] [LinearOrder K] [IsOrderedAddMonoid K]

/-- Invariant of the inner loop. -/
structure GInv (g : Csc) (nl : Nat) (ptr set : List Nat) (cores lb wi : Nat)
    (chunks0 : List (List Nat)) (s : GlcWin) : Prop where
  base : WInv g nl ptr set cores lb wi chunks0 s.base
  acc : 0 < s.base.iter → LabState g ptr set lb s.base.cand s.acc

theorem glcStep_spec {t : Bool} (hwf : g.WF) (hO : LevelOk g L ptr set ntl) {d : Inp K}
    (hd : InpOk g L ptr set ntl d) (debug : Bool) (accept : Nat → Nat → Bool) {cc : Orac}
    (hT : t = true → CCTotal debug g L ptr set ntl d.nodeCost cc) {lb wi : Nat}
    {chunks0 : List (List Nat)} (hwi : wi < L) {s : GlcWin}
    (hI : GInv g L ptr set d.cores lb wi chunks0 s) (hnd : s.base.done = false) :
    wpm t (glcStep debug d accept cc lb wi s) (fun s' =>
      GInv g L ptr set d.cores lb wi chunks0 s' ∧ wMeas L s'.base < wMeas L s.base) := by
  unfold glcStep
  simp only [wpm_bind]
  refine wpm_mono (winStep_spec hwf hO hd debug accept hT hwi hI.base hnd) ?_
  rintro b ⟨⟨hb, hm⟩, hit, hcut, hcand⟩
  simp only [wpm_ok]
  refine ⟨⟨hb, fun _ => ?_⟩, hm⟩
  dsimp only
  have hst := hb.state
  rw [hit]
  by_cases ha : accept lb (s.base.iter + 1) = true
  · rw [if_pos ha] at hcand ⊢
    rw [hcand, ← hcut]; exact hst
  · rw [if_neg ha] at hcand ⊢
    by_cases h1 : s.base.iter + 1 = 1
    · rw [if_pos h1]
      obtain ⟨_, _, s3, s4, _⟩ := hI.base.start (by omega)
      rw [hcand, s3, ← s4, ← hcut]; exact hst
    · rw [if_neg h1, hcand]
      exact hI.acc (by omega)

omit [IsOrderedAddMonoid K] in
theorem glcLevel_spec (hwf : g.WF) (hO : LevelOk g L ptr set ntl) {d : Inp K}
    (hd : InpOk g L ptr set ntl d) (binPack : Bool) {lb ub k parts : Nat} (hlu : lb < ub)
    (hul : ub ≤ L) {acc : List Int} (hacc : LabState g ptr set lb ub acc) {chunk : List Nat}
    (hC : ChunkFor g ptr set d.cores lb ub chunk) {s : Sched} (hB : Built g.Dep (fun _ _ => True) k parts s)
    (hs : s.nodes.Perm (win ptr set 0 lb)) :
    wp (glcLevel false binPack d lb ub acc chunk s) (fun s' => s'.levels = s.levels ∧
      s'.nodes.Perm (win ptr set 0 ub) ∧ ∃ parts', Built g.Dep (fun _ _ => True) (k + 1) parts' s') := by
  have hW := LevelOk.window hO (lb := lb) (ub := ub) (by omega) hul
  have hnd := hW.nodup
  have hLn := hO.lN
  have hpl := hO.ptrLen
  have hX : LabelsX g (win ptr set lb ub) acc :=
    { toLabels := hacc.labels, frame := hacc.frame, sub := fun v hv => ((hW.mem v).1 hv).1 }
  unfold glcLevel
  rw [hd.ptr, hd.set, hd.n, rd_getD 0 (by omega), rd_getD 0 (by omega)]
  simp only [ok_bind, wp_bind]
  refine wp_mono (labelCount_spec hX hnd) ?_
  rintro w ⟨hw1, hw2⟩
  rw [partPtrOf_spec hX hw1 hw2]
  have hmono : ptr.getD lb 0 ≤ ptr.getD ub 0 := LevelOk.ptr_mono hO (by omega) hul
  have hle := LevelOk.ptr_le hO (a := ub) hul
  rw [readSlice_eq hmono hle]
  simp only [wp_ok]
  change wp (forEach (win ptr set lb ub) _ _) _
  refine wp_mono (forEach_wp (fun _ (_ : Bool) => True) _ [] _ trivial ?_) ?_
  · intro p u q b he _
    have hu : u ∈ win ptr set lb ub := by
      rw [List.nil_append] at he
      rw [he]; simp
    rw [rd_getD 0 (by rw [hX.len]; exact hX.sub u hu)]
    simp
  intro bad _
  change wp (if _ then _ else (nodePtrOf acc (win ptr set lb ub) w >>= _)) _
  rw [if_neg (by simp), nodePtrOf_spec hX hnd hw1 hw2]
  simp only [ok_bind]
  have hkl : ∀ u ∈ win ptr set lb ub, key acc u < g.n := fun u hu => LabelsX.key_lt hX hnd hu
  have hbp := bucket_perm hkl
  have hirr : ∀ u, ¬ g.Dep u u := fun u h => absurd (LevelOk.dep_lt hwf hO h) (lt_irrefl _)
  have hR : ∀ u v, g.Dep u v → u ∈ win ptr set lb ub → v ∈ win ptr set lb ub →
      ¬ (key acc v = key acc u → ntl.getD v 0 ≤ ntl.getD u 0) := by
    intro u v huv hu hv hc
    have h1 := hc (LabelsX.dep_key hX huv hu hv).symm
    have := LevelOk.dep_lt hwf hO huv
    omega
  have hfin : ∀ (b : List Nat) (m : Nat) (f : Nat → Nat),
      BoundsOk g.n (win ptr set lb ub) acc b m f →
      wp (appendLevel s b (bucket g.n (key acc) (win ptr set lb ub))) (fun s' =>
        s'.levels = s.levels ∧
        s'.nodes.Perm (win ptr set 0 ub) ∧ ∃ parts', Built g.Dep (fun _ _ => True) (k + 1) parts' s') := by
    intro b m f hb
    exact appendLevel_push hwf hO (fun _ _ h => h) (by omega) hul hB hs
      (levelParts_bucket hX hnd (fun _ _ h => h) hirr hb (.refl _)
        (fun t _ => ⟨.refl _, bucket_levels hO lb ub acc _ _⟩)
        (fun u v h _ => hR u v h)) hbp
  by_cases hbin : binPack = true
  · rw [if_pos hbin]
    obtain ⟨P, reps, hC1, hC2, hC3⟩ := hC
    have hreps := representatives_eq hC2 (hX.representatives hnd)
    have hrl : (repList g.n (win ptr set lb ub) acc).length = (labelList g.n acc).length := by
      simp [repList]
    rw [wp_bind]
    refine wp_mono (mergeParts_spec (nodes := win ptr set lb ub) hC1 (by omega)) ?_
    intro b hb
    exact hfin b _ _ hb
  · rw [if_neg hbin]
    exact hfin _ _ _ (boundsOk_parts g.n _ acc)

/-- The window loop of `GLC_V2`. -/
theorem glcLoop_spec {t : Bool} (hwf : g.WF) (hO : LevelOk g L ptr set ntl) {d : Inp K}
    (hd : InpOk g L ptr set ntl d) (binPack : Bool) (accept : Nat → Nat → Bool) {cc : Orac}
    (hT : t = true → CCTotal false g L ptr set ntl d.nodeCost cc) :
    wpm t (whileF L (fun s => ok (decide (s.base.lvl < L))) (glcOut false binPack d accept cc)
      ⟨⟨[0], List.replicate L [], 0⟩, ⟨0, [0], [0], []⟩⟩) (fun s => s.base.wm ≠ [] ∧
        s.sched.nodes.Perm (List.range g.n) ∧
        ∃ parts, Built g.Dep (fun _ _ => True) (s.base.wm.length - 1) parts s.sched) := by
  have hnl := hd.nl
  refine whileF_wpm (fun s => OInv g L ptr set d.cores s.base ∧
    s.sched.nodes.Perm (win ptr set 0 s.base.lvl) ∧
    ∃ parts, Built g.Dep (fun _ _ => True) (s.base.wm.length - 1) parts s.sched)
    (fun s => L - s.base.lvl) ?_ _ _ (by dsimp only; omega) ?_
  · rintro s ⟨hI, hperm, parts, hB⟩
    simp only [wp_ok]
    by_cases hlt : s.base.lvl < L
    · rw [if_pos (by simpa using hlt)]
      refine ⟨by omega, ?_⟩
      have hwi := hI.wi_lt hlt
      have hwp := hI.wpos
      unfold glcOut
      rw [if_neg (by rintro ⟨h, _⟩; simp at h)]
      simp only [wpm_bind]
      refine whileF_wpm (GInv g L ptr set d.cores s.base.lvl (s.base.wm.length - 1) s.base.chunks)
        (fun w => wMeas L w.base) ?_ _ _ ?_ ⟨WInv.start_ok hd hI hlt, ?_⟩
      · intro w hw
        simp only [wp_ok]
        by_cases hdone : w.base.done = true
        · rw [hdone]
          simp only [Bool.not_true, Bool.false_eq_true, if_false]
          have hit : 0 < w.base.iter := by
            rcases Nat.eq_zero_or_pos w.base.iter with h | h
            · have := (hw.base.start h).1
              rw [hdone] at this
              exact absurd this (by simp)
            · exact h
          obtain ⟨hI', hmeas⟩ := hI.push hw.base hdone
          have hcand := hw.base.cand
          have hlen : (((s.base.wm ++ [w.base.cand]).length : Int) - 2).toNat
              = s.base.wm.length - 1 := by
            simp only [List.length_append, List.length_singleton]; omega
          unfold rdZ
          rw [if_neg (by simp only [List.length_append, List.length_singleton]; omega), hlen,
            rd_getD 0 (by simp only [List.length_append, List.length_singleton]; omega),
            if_neg (by simp only [List.length_append, List.length_singleton]; omega),
            rd_getD [] (by rw [hw.base.chlen]; omega)]
          simp only [wpm_ok]
          have hlast : (s.base.wm ++ [w.base.cand]).getD (s.base.wm.length - 1) 0 = s.base.lvl := by
            rw [List.getD_eq_getElem?_getD, List.getElem?_append_left (by omega),
              ← List.getD_eq_getElem?_getD, hI.wlast]
          rw [hlast]
          refine wpm_of_wp (wp_mono (glcLevel_spec hwf hO hd binPack hcand.1 hcand.2 (hw.acc hit)
            (hw.base.fin hdone) hB hperm) ?_)
          rintro s' ⟨_, h2, parts', h3⟩
          refine ⟨⟨hI', h2, parts', ?_⟩, hmeas⟩
          simp only [List.length_append, List.length_singleton]
          rwa [show s.base.wm.length + 1 - 1 = s.base.wm.length - 1 + 1 by omega]
        · have hdf : w.base.done = false := by simpa using hdone
          rw [hdf]
          simp only [Bool.not_false, if_true]
          refine ⟨by unfold wMeas; rw [hdf]; simp; split <;> omega, ?_⟩
          exact glcStep_spec hwf hO hd false accept hT hwi hw hdf
      · unfold wMeas winStart
        simp only [Bool.false_eq_true, if_false, if_true]
        omega
      · intro h; exact absurd h (by simp [winStart])
    · rw [if_neg (by simpa using hlt)]
      have hL : s.base.lvl = L := by have := hI.lvl; omega
      refine ⟨?_, ?_, parts, hB⟩
      · intro h
        have := hI.wpos
        rw [h] at this
        simp at this
      · rw [hL] at hperm
        refine hperm.trans ?_
        unfold win
        rw [hO.ptr0, hO.ptrL, slice_full (by rw [hO.setLen])]
        exact hO.perm
  · refine ⟨OInv.init g L ptr set d.cores, ?_, 0, Built.empty _ _ _⟩
    dsimp only
    rw [win_self]

end

/-! ### `build_coarsened_level_parallel` -/

theorem coarseMarks_spec {f : Nat} (hf : 0 < f) {L : Nat} : ∀ (fuel i : Nat) (wm : List Nat),
    L - i < fuel → i < L →
    ((wm = [] ∧ i = 0) ∨ (0 < wm.length ∧ wm.getD 0 0 = 0 ∧ wm.getD (wm.length - 1) 0 < i)) →
    (∀ k, k + 1 < wm.length → wm.getD k 0 < wm.getD (k + 1) 0) →
    wp (coarseMarks f (L : Int) fuel i wm) (WmOk L) := by
  intro fuel
  induction fuel with
  | zero => intro i wm h; omega
  | succ fuel ih =>
    intro i wm hfu hi h0 hs
    have hg : ∀ (l : List Nat) (x k : Nat), k < l.length → (l ++ [x]).getD k 0 = l.getD k 0 := by
      intro l x k hk
      simp [List.getD_eq_getElem?_getD, List.getElem?_append_left hk]
    have hg' : ∀ (l : List Nat) (x : Nat), (l ++ [x]).getD l.length 0 = x := by
      intro l x
      simp [List.getD_eq_getElem?_getD]
    have hs' : ∀ (l : List Nat) (x : Nat), (0 < l.length → l.getD (l.length - 1) 0 < x) →
        (∀ k, k + 1 < l.length → l.getD k 0 < l.getD (k + 1) 0) →
        ∀ k, k + 1 < (l ++ [x]).length → (l ++ [x]).getD k 0 < (l ++ [x]).getD (k + 1) 0 := by
      intro l x hlx hl k hk
      simp only [List.length_append, List.length_singleton] at hk
      by_cases hk' : k + 1 = l.length
      · rw [hk', hg', hg l x k (by omega), show k = l.length - 1 by omega]; exact hlx (by omega)
      · rw [hg l x k (by omega), hg l x (k + 1) (by omega)]; exact hl k (by omega)
    have hfirst : (wm ++ [i]).getD 0 0 = 0 := by
      rcases h0 with ⟨rfl, rfl⟩ | ⟨h1, h2, h3⟩
      · rfl
      · rw [hg wm i 0 h1]; exact h2
    have hstr := hs' wm i (by
      intro h
      rcases h0 with ⟨rfl, rfl⟩ | ⟨h1, h2, h3⟩
      · simp at h
      · exact h3) hs
    have hlast : (wm ++ [i]).getD ((wm ++ [i]).length - 1) 0 = i := by
      simp only [List.length_append, List.length_singleton, Nat.add_sub_cancel]; exact hg' wm i
    unfold coarseMarks
    rw [if_pos (by omega)]
    dsimp only
    by_cases hend : (L : Int) ≤ ((i + f : Nat) : Int)
    · rw [if_pos hend]
      simp only [wp_ok, Int.toNat_natCast]
      refine ⟨by simp, ?_, ?_, ?_⟩
      · rw [hg _ _ 0 (by simp)]; exact hfirst
      · rw [show ((wm ++ [i]) ++ [L]).length - 1 = (wm ++ [i]).length by simp]; exact hg' _ _
      · exact hs' _ _ (by intro _; rw [hlast]; exact hi) hstr
    · rw [if_neg hend]
      refine ih (i + f) (wm ++ [i]) (by omega) (by omega) (.inr ⟨by simp, hfirst, ?_⟩) hstr
      rw [hlast]; omega

theorem coarsenedWith_spec {t : Bool} (hwf : g.WF) (hO : LevelOk g L ptr set ntl)
    (hL : 0 < L) {o : LevelSet.Out} (ho : buildLevelSet g.n g.p g.i = ok o) (hr : o.ret = L)
    (h1 : o.levelPtr = ptr) (h2 : o.levelSet = set) (h3 : o.nodeToLevel = ntl) (f cores : Nat)
    {cc : Orac} (hT : t = true → SCTotal g L ptr set ntl cc) :
    wpm t (coarsenedWith f false g.n g.p g.i cores cc) (fun s => s.Valid g.n g.Dep) := by
  unfold coarsenedWith
  rw [ho]
  simp only [ok_bind]
  have hLn := hO.lN
  by_cases hf : 0 < f
  · rw [if_pos hf, hr]
    simp only [wpm_bind]
    refine wpm_of_wp (wp_mono (coarseMarks_spec hf (g.n + 1) 0 [] (by omega) hL (.inl ⟨rfl, rfl⟩)
      (by intro k hk; simp at hk)) ?_)
    intro wm hw
    subst h1 h2 h3
    refine wpm_mono (computeSchedule_spec (S := fun _ _ => True) (d := ⟨cores, g.n, g.p, g.i, o.levelPtr, o.levelSet,
      o.nodeToLevel, false, false⟩) hwf hO ⟨rfl, rfl, rfl, rfl, rfl, rfl⟩ (fun _ _ h => h)
      (by intro h; simp at h) (by intro h; simp at h) hT hw (by intro h; simp at h)
      (by intro h; simp at h)) (fun s hs => hs.2.1.mono fun _ _ h => ⟨h, trivial⟩)
  · rw [if_neg hf, hr]
    simp only [wpm_ok]
    subst h1 h2 h3
    have hpl := hO.ptrLen
    have hlen : ((L : Int) + 1).toNat = L + 1 := by omega
    rw [hlen, Int.toNat_natCast]
    have hptr : PtrOk o.levelPtr L g.n := by
      refine ⟨?_, ?_, ?_⟩
      · rw [hO.get_ptr (by omega), hO.ptr0]
      · rw [hO.get_ptr (by omega), hO.ptrL]
      · intro b hb lo hi e1 e2
        rw [hO.get_ptr (by omega)] at e1 e2
        cases e1; cases e2
        exact le_of_lt (hO.strict b hb)
    refine ⟨⟨L, ⟨by simp, by simp, ?_⟩, hptr⟩, ?_, ?_⟩
    · intro b hb lo hi e1 e2
      have hb : b < L := hb
      simp only [List.getElem?_range (show b < L + 1 by omega),
        List.getElem?_range (show b + 1 < L + 1 by omega), Option.some.injEq] at e1 e2
      omega
    · unfold Sched.Complete
      rw [List.take_of_length_le (by rw [hO.setLen])]
      exact hO.perm
    · intro u v huv l q k l' q' k' ⟨a1, a2, a3, a4⟩ ⟨b1, b2, b3, b4⟩
      simp only at a1 a2 a3 a4 b1 b2 b3 b4
      have hq : ∀ l q, l < L → InBlock (List.range (L + 1)) l q → q = l := by
        rintro l q hl ⟨lo, hi, e1, e2, e3, e4⟩
        simp only [List.getElem?_range (show l < L + 1 by omega),
          List.getElem?_range (show l + 1 < L + 1 by omega), Option.some.injEq] at e1 e2
        omega
      have hlv : ∀ l k w, l < L → InBlock o.levelPtr l k → o.levelSet[k]? = some w →
          o.nodeToLevel.getD w 0 = l := by
        rintro l k w hl ⟨lo, hi, e1, e2, e3, e4⟩ hk
        rw [hO.get_ptr (by omega)] at e1 e2
        cases e1; cases e2
        have := hO.lvl l k hl e3 e4
        rwa [List.getD_eq_getElem?_getD (l := o.levelSet), hk, Option.getD_some] at this
      have hq1 := hq l q a1 a2
      have hq2 := hq l' q' b1 b2
      subst hq1 hq2
      have e1 := hlv q k u a1 a3 a4
      have e2 := hlv q' k' v b1 b3 b4
      have := LevelOk.dep_lt hwf hO huv
      omega

end Verif.Hdagg
