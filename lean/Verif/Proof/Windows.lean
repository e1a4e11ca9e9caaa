import Verif.Proof.ComputeCC
import Verif.Proof.Pack
import Verif.WPM

/-! # The window loop of `HDAGG` -/

namespace Verif.Hdagg
open Res CC Csc LevelSet

section sums
variable {K : Type} [AddCommGroup K]

theorem sum_ite_unique {α : Type _} {p : α → Prop} [DecidablePred p] (x : K) :
    ∀ (l : List α), (∃ r ∈ l, p r) →
      (∀ (q q' : Nat) (r r' : α), l[q]? = some r → l[q']? = some r' → p r → p r' → q = q') →
      (l.map fun r => if p r then x else 0).sum = x := by
  intro l
  induction l with
  | nil => rintro ⟨r, hr, _⟩; simp at hr
  | cons a l ih =>
    intro h1 h2
    rw [List.map_cons, List.sum_cons]
    by_cases ha : p a
    · have : (l.map fun r => if p r then x else 0).sum = 0 := by
        apply List.sum_eq_zero
        intro y hy
        obtain ⟨r, hr, rfl⟩ := List.mem_map.1 hy
        rw [if_neg]
        intro hp
        obtain ⟨k, hk⟩ := List.mem_iff_getElem?.1 hr
        have := h2 0 (k + 1) a r rfl (by simpa using hk) ha hp
        omega
      rw [if_pos ha, this, add_zero]
    · rw [if_neg ha, zero_add]
      apply ih
      · obtain ⟨r, hr, hp⟩ := h1
        rcases List.mem_cons.1 hr with rfl | hr
        · exact absurd hp ha
        · exact ⟨r, hr, hp⟩
      · intro q q' r r' hq hq' hp hp'
        have := h2 (q + 1) (q' + 1) r r' (by simpa using hq) (by simpa using hq') hp hp'
        omega

variable {g : Csc}

/-- The costs of the components add up to the cost of all nodes. -/
theorem sum_compCost {nodes reps : List Nat} (h : g.Representatives nodes reps) (cost : List K) :
    (reps.map (g.compCost nodes cost)).sum = (nodes.map fun u => cost.getD u 0).sum := by
  classical
  have key : ∀ ns : List Nat, (∀ u ∈ ns, u ∈ nodes) →
      (reps.map fun r => ((ns.filter fun u => decide (g.Connected (· ∈ nodes) r u)).map
        fun u => cost.getD u 0).sum).sum = (ns.map fun u => cost.getD u 0).sum := by
    intro ns
    induction ns with
    | nil => intro _; simp
    | cons u ns ih =>
      intro hs
      rw [List.map_cons, List.sum_cons, ← ih (fun v hv => hs v (List.mem_cons_of_mem _ hv))]
      have hu := hs u List.mem_cons_self
      have h1 := sum_ite_unique (p := fun r => g.Connected (· ∈ nodes) r u) (cost.getD u 0) reps
        (h.every u hu) (fun q q' r r' hq hq' hp hp' => h.once q q' r r' hq hq'
          (Csc.conn_trans hp (Csc.conn_symm hp')))
      conv_rhs => rw [← h1]
      rw [← List.sum_map_add]
      congr 1
      apply List.map_congr_left
      intro r _
      by_cases hr : g.Connected (· ∈ nodes) r u
      · rw [List.filter_cons_of_pos (by simpa using hr), if_pos hr]; simp
      · rw [List.filter_cons_of_neg (by simpa using hr), if_neg hr]; simp
  have := key nodes (fun _ h => h)
  rw [← this]
  congr 1

end sums

variable {K : Type} [AddCommGroup K] [LinearOrder K] [IsOrderedAddMonoid K]
variable {g : Csc} {L : Nat} {ptr set ntl : List Nat}

theorem compCost_pos {nodes : List Nat} {cost : List K} {r : Nat} (hr : r ∈ nodes)
    (hpos : ∀ v ∈ nodes, 0 < cost.getD v 0) : 0 < g.compCost nodes cost r := by
  classical
  unfold Csc.compCost
  apply List.sum_pos
  · intro x hx
    obtain ⟨u, hu, rfl⟩ := List.mem_map.1 hx
    exact hpos u (List.mem_of_mem_filter hu)
  · intro h
    rw [List.map_eq_nil_iff] at h
    have : r ∈ ([] : List Nat) := by
      rw [← h]
      exact List.mem_filter.2 ⟨hr, decide_eq_true (Relation.EqvGen.refl r)⟩
    simp at this

/-- The hypotheses of the packing follow from those of the component computation. -/
theorem CCOk.pack {nodes : List Nat} {cost : List K} {o : CCOut K} (h : CCOk g nodes cost o)
    (hpos : ∀ v ∈ nodes, 0 < cost.getD v 0) :
    o.partCnt ≤ o.partCost.length ∧ (∀ q, q < o.partCnt → 0 < o.partCost.getD q 0) ∧
    o.total = S o.partCost 0 o.partCnt ∧
    ∀ reps, g.Representatives nodes reps → reps.length = o.partCnt := by
  obtain ⟨reps, h1, h2, h3⟩ := h.comps
  have hle : o.partCnt ≤ o.partCost.length := by
    rcases Nat.eq_zero_or_pos o.partCnt with h0 | h0
    · omega
    · have := h3 (o.partCnt - 1) (reps[o.partCnt - 1]'(by omega)) (List.getElem?_eq_getElem _)
      have := (List.getElem?_eq_some_iff.1 this).1
      omega
  refine ⟨hle, ?_, ?_, fun reps' h' => by rw [representatives_eq h1 h', h2]⟩
  · intro q hq
    have hr := List.getElem?_eq_getElem (l := reps) (i := q) (by omega)
    have := h3 q _ hr
    rw [List.getD_eq_getElem?_getD, this]
    exact compCost_pos (h1.inside _ (List.getElem_mem _)) hpos
  · rw [h.total, ← sum_compCost h1 cost, S, slice_zero]
    congr 1
    apply List.ext_getElem?
    intro q
    rw [List.getElem?_map, List.getElem?_take]
    by_cases hq : q < o.partCnt
    · rw [if_pos hq, List.getElem?_eq_getElem (l := reps) (by omega), Option.map_some]
      exact (h3 q _ (List.getElem?_eq_getElem _)).symm
    · rw [if_neg hq, List.getElem?_eq_none (by omega)]; rfl

/-! ### Growing a window does not increase the number of components -/

theorem LevelOk.pred (hwf : g.WF) (h : LevelOk g L ptr set ntl) {v : Nat} (hv : v < g.n)
    (h0 : 0 < ntl.getD v 0) : ∃ u, g.Dep u v ∧ ntl.getD u 0 + 1 = ntl.getD v 0 := by
  have hp := (h.depth v hv).1
  generalize he : ntl.getD v 0 = k at *
  cases hp with
  | nil => omega
  | @snoc k u _ hp hd =>
    refine ⟨u, hd, ?_⟩
    have h1 := LevelOk.dep_lt hwf h hd
    have h2 := (h.depth u (hwf.dep_lt hd).1).2
    by_contra hc
    exact h2 (hp.le hwf (by omega))

theorem LevelOk.conn_below (hwf : g.WF) (h : LevelOk g L ptr set ntl) {lb c c' : Nat} (hc : lb < c)
    (hcc : c ≤ c') (hL : c' ≤ L) : ∀ (d v : Nat), ntl.getD v 0 = lb + d →
      v ∈ win ptr set lb c' → ∃ u ∈ win ptr set lb c, g.Connected (· ∈ win ptr set lb c') u v := by
  intro d
  induction d with
  | zero =>
    intro v hd hv
    refine ⟨v, ?_, .refl _⟩
    have := (LevelOk.mem_win h (by omega) hL v).1 hv
    exact (LevelOk.mem_win h (by omega) (by omega) v).2 ⟨this.1, this.2.1, by omega⟩
  | succ d ih =>
    intro v hd hv
    have hv' := (LevelOk.mem_win h (by omega) hL v).1 hv
    obtain ⟨u, hu, hul⟩ := LevelOk.pred hwf h hv'.1 (by omega)
    have hum : u ∈ win ptr set lb c' :=
      (LevelOk.mem_win h (by omega) hL u).2 ⟨(hwf.dep_lt hu).1, by omega, by omega⟩
    obtain ⟨w, hw, hwu⟩ := ih u (by omega) hum
    exact ⟨w, hw, Csc.conn_trans hwu (.rel _ _ ⟨hum, hv, hu⟩)⟩

theorem reps_grow (hwf : g.WF) (h : LevelOk g L ptr set ntl) {lb c c' : Nat} (hc : lb < c)
    (hcc : c ≤ c') (hL : c' ≤ L) {reps reps' : List Nat}
    (h1 : g.Representatives (win ptr set lb c) reps)
    (h2 : g.Representatives (win ptr set lb c') reps') : reps'.length ≤ reps.length := by
  refine representatives_le h1 h2 ?_ ?_
  · intro v hv
    have := (LevelOk.mem_win h (by omega) (by omega) v).1 hv
    exact (LevelOk.mem_win h (by omega) hL v).2 ⟨this.1, this.2.1, by omega⟩
  · intro v hv
    have := (LevelOk.mem_win h (by omega) hL v).1 hv
    exact LevelOk.conn_below hwf h hc hcc hL (ntl.getD v 0 - lb) v (by omega) hv

/-! ### The chunk array of a window -/

/-- `chunk` has boundaries for at least the components of the window `lb .. c-1`. -/
def ChunkFor (g : Csc) (ptr set : List Nat) (cores lb c : Nat) (chunk : List Nat) : Prop :=
  ∃ P reps, ChunkOk cores P chunk ∧ g.Representatives (win ptr set lb c) reps ∧ reps.length ≤ P

theorem ChunkFor.grow (hwf : g.WF) (h : LevelOk g L ptr set ntl) {cores lb c c' : Nat}
    {chunk reps' : List Nat} (hC : ChunkFor g ptr set cores lb c chunk) (hc : lb < c)
    (hcc : c ≤ c') (hL : c' ≤ L) (h2 : g.Representatives (win ptr set lb c') reps') :
    ChunkFor g ptr set cores lb c' chunk := by
  obtain ⟨P, reps, h3, h4, h5⟩ := hC
  exact ⟨P, reps', h3, h2, (reps_grow hwf h hc hcc hL h4 h2).trans h5⟩

/-- Every call of `computeCC` finishes under the oracle. -/
def CCTotal (debug : Bool) (g : Csc) (L : Nat) (ptr set ntl : List Nat) (cost : List K)
    (cc : Orac) : Prop :=
  ∀ lb cut ub lab, lb ≤ cut → cut ≤ ub → lb < ub → ub ≤ L → LabState g ptr set lb cut lab →
    computeCC debug lb cut ub g.n g.p g.i ptr set ntl lab cost (cc lb ub lab) ≠ nofuel

theorem labState_unique (hO : LevelOk g L ptr set ntl) {lb cut cut' : Nat} {lab : List Int}
    (h : LabState g ptr set lb cut lab) (h' : LabState g ptr set lb cut' lab) (h1 : lb ≤ cut)
    (h2 : cut < cut') (h3 : cut' ≤ L) : False := by
  have hs := hO.strict cut (by omega)
  have hle := LevelOk.ptr_le hO (a := cut + 1) (by omega)
  have hk : set[ptr.getD cut 0]? = some (set.getD (ptr.getD cut 0) 0) := by
    rw [List.getD_eq_getElem?_getD (l := set), List.getElem?_eq_getElem (by omega)]; rfl
  have hv := LevelOk.level_at hO hk
  have hl := hO.lvl cut (ptr.getD cut 0) (by omega) (le_refl _) hs
  have hm : set.getD (ptr.getD cut 0) 0 ∈ win ptr set lb cut' :=
    (LevelOk.mem_win hO (by omega) h3 _).2 ⟨hv.1, by omega, by omega⟩
  have hm' : set.getD (ptr.getD cut 0) 0 ∉ win ptr set lb cut := by
    intro hc
    have := (LevelOk.mem_win hO h1 (by omega) _).1 hc
    omega
  have e1 := h.frame _ hv.1 hm'
  obtain ⟨k, hk'⟩ := List.mem_iff_getElem?.1 hm
  have hkl := (List.getElem?_eq_some_iff.1 hk').1
  have e2 := (h'.labels.range k hkl).1
  rw [List.getD_eq_getElem?_getD (l := win ptr set lb cut'), hk', Option.getD_some] at e2
  omega

omit [LinearOrder K] [IsOrderedAddMonoid K] in
/-- Such an oracle exists. -/
theorem exists_ccTotal (hwf : g.WF) (hO : LevelOk g L ptr set ntl) {cost : List K}
    (hc : cost.length = g.n) (debug : Bool) : ∃ cc, CCTotal debug g L ptr set ntl cost cc := by
  classical
  have key : ∀ (lb ub : Nat) (lab : List Int), ∃ sch, ∀ cut, lb ≤ cut → cut ≤ ub → lb < ub → ub ≤ L →
      LabState g ptr set lb cut lab →
      computeCC debug lb cut ub g.n g.p g.i ptr set ntl lab cost sch ≠ nofuel := by
    intro lb ub lab
    by_cases h : ∃ cut, lb ≤ cut ∧ cut ≤ ub ∧ lb < ub ∧ ub ≤ L ∧ LabState g ptr set lb cut lab
    · obtain ⟨cut, h1, h2, h3, h4, h5⟩ := h
      obtain ⟨sch, hs⟩ := (computeCC_spec hwf hO h1 h2 h3 h4 h5 hc debug).2
      refine ⟨sch, ?_⟩
      intro cut' h1' h2' _ _ h5'
      rcases Nat.lt_trichotomy cut cut' with hlt | rfl | hlt
      · exact (labState_unique hO h5 h5' h1 hlt (by omega)).elim
      · exact hs
      · exact (labState_unique hO h5' h5 h1' hlt (by omega)).elim
    · refine ⟨[], ?_⟩
      intro cut h1 h2 h3 h4 h5
      exact (h ⟨cut, h1, h2, h3, h4, h5⟩).elim
  choose f hf using key
  exact ⟨fun lb ub lab => f lb ub lab, fun lb cut ub lab h1 h2 h3 h4 h5 =>
    hf lb ub lab cut h1 h2 h3 h4 h5⟩

/-! ### One window -/

/-- Invariant of `while (!done_flag)`. -/
structure WInv (g : Csc) (nl : Nat) (ptr set : List Nat) (cores lb wi : Nat)
    (chunks0 : List (List Nat)) (s : WinSt) : Prop where
  state : LabState g ptr set lb s.cut s.lab
  cutl : lb ≤ s.cut
  cutu : s.done = false → s.cut ≤ s.ub
  clen : s.chunk.length = cores + 1
  c0 : s.chunk.getD 0 0 = 0
  eff : s.eff ≤ cores
  chlen : s.chunks.length = nl
  old : ∀ k, k < wi → s.chunks.getD k [] = chunks0.getD k []
  ubl : lb < s.ub
  ubu : s.ub ≤ nl
  cand : lb < s.cand ∧ s.cand ≤ nl
  start : s.iter = 0 → s.done = false ∧ s.cut = lb ∧ s.cand = lb + 1 ∧ s.ub = lb + 1 ∧ s.prevUb = 0
  run : 0 < s.iter → s.done = false → s.cand = s.cut ∧ s.prevUb = s.ub ∧
    s.ub = min (s.cut + 1) nl ∧ ChunkFor g ptr set cores lb s.cut s.chunk
  fin : s.done = true → ChunkFor g ptr set cores lb s.cand (s.chunks.getD wi [])

/-- Measure of the inner loop. -/
def wMeas (nl : Nat) (s : WinSt) : Nat :=
  if s.done then 0 else if s.iter = 0 then nl - s.ub + 2 else nl - s.ub + 1

/-- The unchanging data of `HDAGG` agree with the level-set computation. -/
structure InpOk (g : Csc) (L : Nat) (ptr set ntl : List Nat) (d : Inp K) : Prop where
  n : d.n = g.n
  p : d.p = g.p
  i : d.ix = g.i
  ptr : d.levelPtr = ptr
  set : d.levelSet = set
  lvl : d.lvl = ntl
  nl : d.nlevels = L
  cost : d.nodeCost.length = g.n
  pos : ∀ v, v < g.n → 0 < d.nodeCost.getD v 0
  cores : 1 ≤ d.cores
  rdiv : RDivOk d.rdiv

theorem winStep_spec {t : Bool} (hwf : g.WF) (hO : LevelOk g L ptr set ntl) {d : Inp K}
    (hd : InpOk g L ptr set ntl d) (debug : Bool) (accept : Nat → Nat → Bool) {cc : Orac}
    (hT : t = true → CCTotal debug g L ptr set ntl d.nodeCost cc) {lb wi : Nat}
    {chunks0 : List (List Nat)} (hwi : wi < L) {s : WinSt}
    (hI : WInv g L ptr set d.cores lb wi chunks0 s) (hnd : s.done = false) :
    wpm t (winStep debug d accept cc lb wi s) (fun s' =>
      (WInv g L ptr set d.cores lb wi chunks0 s' ∧ wMeas L s' < wMeas L s) ∧
      s'.iter = s.iter + 1 ∧ s'.cut = s.ub ∧
      s'.cand = if accept lb (s.iter + 1) then s.ub else s.cand) := by
  obtain ⟨hn, hp, hi, hptr, hset, hlvl, hnl, hcost, hpos, hcores, hrdiv⟩ := hd
  obtain ⟨dn, dp, dix, dcost, dcores, drdiv, dptr, dset, dlvl, dnl⟩ := d
  simp only at hn hp hi hptr hset hlvl hnl hcost hpos hcores hrdiv hT hI ⊢
  subst hn hp hi hptr hset hlvl hnl
  have hubl := hI.ubl
  have hubu := hI.ubu
  have hLn := hO.lN
  have hpl := hO.ptrLen
  unfold winStep
  simp only
  rw [wr_eq (by rw [hI.chlen]; omega)]
  simp only [ok_bind]
  rw [rd_getD 0 (by omega)]
  simp only [ok_bind]
  unfold rdZ
  rw [if_neg (by omega), rd_getD 0 (by omega)]
  simp only [ok_bind, wpm_bind]
  set x := dptr.getD s.ub 0
  set y := dptr.getD ((s.ub : Int) - 1).toNat 0
  set eff := (if s.ub = lb + 1 ∧ x - y < dcores then x - y
             else if x - y > s.eff then dcores else s.eff) with heff
  have heffle : eff ≤ dcores := by
    have := hI.eff
    rw [heff]
    split
    · omega
    · split <;> omega
  have hcc := computeCC_spec hwf hO hI.cutl (hI.cutu hnd) hubl hubu hI.state hcost debug
  refine wpm_mono (wpm_of_wpl (hcc.1 _) (fun ht => hT ht _ _ _ _ hI.cutl (hI.cutu hnd) hubl hubu
    hI.state)) ?_
  intro o ho
  have hW := LevelOk.window hO (lb := lb) (ub := s.ub) (by omega) hubu
  obtain ⟨hp1, hp2, hp3, hp4⟩ := ho.pack (fun v hv => hpos v ((hW.mem v).1 hv).1)
  refine wpm_of_wp (wp_mono (pack_spec debug hrdiv hcores hp1 hp2 hp3 hI.clen hI.c0) ?_)
  rintro ⟨chunk, cost⟩ hP
  simp only at hP ⊢
  have hCF : ChunkFor g dptr dset dcores lb s.ub chunk := by
    obtain ⟨reps, h1, h2, _⟩ := ho.comps
    exact ⟨o.partCnt, reps, hP.chunkOk, h1, h2.le⟩
  have hreps : ∃ reps, g.Representatives (win dptr dset lb s.ub) reps := by
    obtain ⟨reps, h1, _⟩ := ho.comps
    exact ⟨reps, h1⟩
  refine wpm_of_wp (forRange_wp' (fun _ _ => True) (Nat.zero_le _) trivial ?_ ?_)
  · intro i _ _ hi _
    rw [rd_getD 0 (by rw [hP.klen]; omega)]
    simp
  intro _ _
  have hLS : LabState g dptr dset lb s.ub o.lab := ⟨ho.labels.toLabels, ho.labels.frame⟩
  have hclen : chunk.length = dcores + 1 := hP.chunkOk.len
  have hc0 : chunk.getD 0 0 = 0 := by
    rw [List.getD_eq_getElem?_getD, hP.chunkOk.first]; rfl
  have hchl : ∀ w : List Nat, (s.chunks.set wi w).length = dnl := by
    intro w; simpa using hI.chlen
  have hold : ∀ w : List Nat, ∀ k, k < wi → (s.chunks.set wi w).getD k [] = chunks0.getD k [] := by
    intro w k hk
    rw [getD_set, if_neg (by omega)]; exact hI.old k hk
  have hat : ∀ w : List Nat, (s.chunks.set wi w).getD wi [] = w := by
    intro w
    rw [getD_set, if_pos ⟨rfl, by rw [hI.chlen]; exact hwi⟩]
  have hmeas : 0 < wMeas dnl s := by
    unfold wMeas; rw [hnd]; simp; split <;> omega
  by_cases hacc : accept lb (s.iter + 1) = true
  · rw [if_pos hacc]
    by_cases hpu : s.prevUb = min (s.ub + 1) dnl
    · rw [if_pos hpu]
      have hit : 0 < s.iter := by
        rcases Nat.eq_zero_or_pos s.iter with h | h
        · have := hI.start h; omega
        · exact h
      obtain ⟨r1, r2, r3, r4⟩ := hI.run hit hnd
      rw [if_neg (by omega)]
      simp only [wpm_ok]
      refine ⟨⟨⟨hLS, by dsimp only; omega, by intro h; simp at h, hclen, hc0, heffle,
        hchl _, hold _, by dsimp only; omega, by dsimp only; omega, by dsimp only; omega,
        by intro h; simp at h, by intro _ h; simp at h, ?_⟩, ?_⟩, trivial, trivial, by simp [hacc]⟩
      · intro _
        simp only
        rw [hat]
        obtain ⟨reps, hreps⟩ := hreps
        have := hI.cand
        exact r4.grow hwf hO (by omega) (by omega) hubu hreps
      · unfold wMeas at hmeas ⊢
        simpa using hmeas
    · rw [if_neg hpu]
      simp only [wpm_ok]
      refine ⟨⟨⟨hLS, by dsimp only; omega, fun _ => by dsimp only; omega, hclen, hc0, heffle,
        hchl _, hold _, by dsimp only; omega, by dsimp only; omega, by dsimp only; omega,
        by intro h; simp at h, ?_, by intro h; simp only [hnd] at h; simp at h⟩, ?_⟩, trivial, trivial, by simp [hacc]⟩
      · intro _ _
        exact ⟨rfl, rfl, rfl, hCF⟩
      · unfold wMeas
        simp only [hnd]
        rcases Nat.eq_zero_or_pos s.iter with h | h
        · have := hI.start h
          simp [h]; omega
        · obtain ⟨r1, r2, r3, r4⟩ := hI.run h hnd
          simp
          rw [if_neg (by omega)]
          omega
  · rw [if_neg hacc]
    by_cases hit : s.iter + 1 = 1
    · rw [if_pos hit, wr_eq (by rw [hchl]; exact hwi)]
      simp only [ok_bind, wpm_ok]
      obtain ⟨s1, s2, s3, s4, s5⟩ := hI.start (by omega)
      refine ⟨⟨⟨hLS, by dsimp only; omega, by intro h; simp at h, hclen, hc0, heffle,
        by simpa using hI.chlen, ?_, by dsimp only; omega, by dsimp only; omega, hI.cand,
        by intro h; simp at h, by intro _ h; simp at h, ?_⟩, ?_⟩, trivial, trivial, by simp [hacc]⟩
      · intro k hk
        simp only [List.set_set]
        exact hold _ k hk
      · intro _
        simp only [List.set_set]
        rw [hat, s3, ← s4]
        exact hCF
      · unfold wMeas at hmeas ⊢
        simpa using hmeas
    · rw [if_neg hit]
      simp only [wpm_ok]
      obtain ⟨r1, r2, r3, r4⟩ := hI.run (by omega) hnd
      refine ⟨⟨⟨hLS, by dsimp only; omega, by intro h; simp at h, hclen, hc0, heffle,
        hchl _, hold _, by dsimp only; omega, by dsimp only; omega, hI.cand,
        by intro h; simp at h, by intro _ h; simp at h, ?_⟩, ?_⟩, trivial, trivial, by simp [hacc]⟩
      · intro _
        simp only
        rw [hat, r1]
        exact r4
      · unfold wMeas at hmeas ⊢
        simpa using hmeas

/-! ### All windows -/

/-- Invariant of the outer loop: watermarks and chunk arrays of the windows so far. -/
structure OInv (g : Csc) (nl : Nat) (ptr set : List Nat) (cores : Nat) (s : OutSt) : Prop where
  wpos : 0 < s.wm.length
  w0 : s.wm.getD 0 0 = 0
  wlast : s.wm.getD (s.wm.length - 1) 0 = s.lvl
  lvl : s.lvl ≤ nl
  strict : ∀ k, k + 1 < s.wm.length → s.wm.getD k 0 < s.wm.getD (k + 1) 0
  chlen : s.chunks.length = nl
  chunk : ∀ k, k + 1 < s.wm.length →
    ChunkFor g ptr set cores (s.wm.getD k 0) (s.wm.getD (k + 1) 0) (s.chunks.getD k [])

theorem OInv.idx_le {nl cores : Nat} {s : OutSt} (h : OInv g nl ptr set cores s) :
    ∀ k, k < s.wm.length → k ≤ s.wm.getD k 0 := by
  intro k
  induction k with
  | zero => intro _; omega
  | succ k ih =>
    intro hk
    have := ih (by omega)
    have := h.strict k hk
    omega

theorem OInv.push {cores : Nat} {s : OutSt} (hI : OInv g L ptr set cores s) {w : WinSt}
    (hw : WInv g L ptr set cores s.lvl (s.wm.length - 1) s.chunks w) (hdone : w.done = true) :
    OInv g L ptr set cores ⟨s.wm ++ [w.cand], w.chunks, w.cand⟩ ∧ L - w.cand < L - s.lvl := by
  have hc := hw.cand
  have hwp := hI.wpos
  have hg : ∀ k, k < s.wm.length → (s.wm ++ [w.cand]).getD k 0 = s.wm.getD k 0 := by
    intro k hk
    simp [List.getD_eq_getElem?_getD, List.getElem?_append_left hk]
  have hg' : (s.wm ++ [w.cand]).getD s.wm.length 0 = w.cand := by
    simp [List.getD_eq_getElem?_getD]
  refine ⟨⟨by simp, ?_, ?_, hc.2, ?_, hw.chlen, ?_⟩, by omega⟩
  · dsimp only; rw [hg 0 hwp]; exact hI.w0
  · simp only [List.length_append, List.length_singleton, Nat.add_sub_cancel]; exact hg'
  · intro k hk
    simp only [List.length_append, List.length_singleton] at hk
    by_cases hk' : k + 1 = s.wm.length
    · dsimp only
      rw [hk', hg', hg k (by omega), show k = s.wm.length - 1 by omega, hI.wlast]; exact hc.1
    · dsimp only
      rw [hg k (by omega), hg (k + 1) (by omega)]; exact hI.strict k (by omega)
  · intro k hk
    simp only [List.length_append, List.length_singleton] at hk
    by_cases hk' : k + 1 = s.wm.length
    · dsimp only
      rw [hk', hg', hg k (by omega), show k = s.wm.length - 1 by omega, hI.wlast]
      exact hw.fin hdone
    · dsimp only
      rw [hg k (by omega), hg (k + 1) (by omega), hw.old k (by omega)]
      exact hI.chunk k (by omega)

theorem OInv.wi_lt {cores : Nat} {s : OutSt} (hI : OInv g L ptr set cores s) (h : s.lvl < L) :
    s.wm.length - 1 < L := by
  have := hI.idx_le (s.wm.length - 1) (by have := hI.wpos; omega)
  have := hI.wlast
  omega

omit [IsOrderedAddMonoid K] in
theorem WInv.start_ok {d : Inp K} (hd : InpOk g L ptr set ntl d) {s : OutSt}
    (hI : OInv g L ptr set d.cores s) (h : s.lvl < L) :
    WInv g L ptr set d.cores s.lvl (s.wm.length - 1) s.chunks (winStart d s.lvl s.chunks) := by
  have hnl := hd.nl
  have hmin : min (s.lvl + 1) d.nlevels = s.lvl + 1 := by omega
  unfold winStart
  rw [hmin, hd.n]
  refine ⟨LabState.init ptr set s.lvl, le_refl _, fun _ => by simp only []; omega,
    by simp, ?_, le_refl _, hI.chlen, fun _ _ => rfl, by dsimp only; omega,
    by dsimp only; omega, by dsimp only; omega, fun _ => ⟨rfl, rfl, rfl, rfl, rfl⟩,
    by intro h; simp at h, by intro h; simp at h⟩
  dsimp only
  exact getD_replicate _ _ _ _ (by omega)

theorem OInv.init (g : Csc) (L : Nat) (ptr set : List Nat) (cores : Nat) :
    OInv g L ptr set cores ⟨[0], List.replicate L [], 0⟩ := by
  refine ⟨by simp, rfl, rfl, by simp, ?_, by simp, ?_⟩
  · intro k hk; simp at hk
  · intro k hk; simp at hk

theorem windows_spec {t : Bool} (hwf : g.WF) (hO : LevelOk g L ptr set ntl) {d : Inp K}
    (hd : InpOk g L ptr set ntl d) (debug : Bool) (accept : Nat → Nat → Bool) {cc : Orac}
    (hT : t = true → CCTotal debug g L ptr set ntl d.nodeCost cc) :
    wpm t (windows debug d accept cc) (fun s => OInv g L ptr set d.cores s ∧ s.lvl = L) := by
  unfold windows
  have hnl := hd.nl
  refine whileF_wpm (OInv g L ptr set d.cores) (fun s => L - s.lvl) ?_ _ _ (by dsimp only; omega) ?_
  · intro s hI
    simp only [wp_ok]
    by_cases hlt : s.lvl < d.nlevels
    · rw [if_pos (by simpa using hlt)]
      refine ⟨by omega, ?_⟩
      have hwi := hI.wi_lt (by omega)
      unfold outStep
      rw [if_neg (by rintro ⟨_, h⟩; apply h; omega)]
      simp only [wpm_bind]
      refine whileF_wpm (WInv g L ptr set d.cores s.lvl (s.wm.length - 1) s.chunks) (wMeas L) ?_ _ _
        ?_ (WInv.start_ok hd hI (by omega))
      · intro w hw
        simp only [wp_ok]
        by_cases hdone : w.done = true
        · rw [hdone]
          simp only [Bool.not_true, Bool.false_eq_true, if_false, wpm_ok]
          exact hI.push hw hdone
        · have hdf : w.done = false := by simpa using hdone
          rw [hdf]
          simp only [Bool.not_false, if_true]
          refine ⟨by unfold wMeas; rw [hdf]; simp; split <;> omega, ?_⟩
          exact wpm_mono (winStep_spec hwf hO hd debug accept hT hwi hw hdf) fun _ h => h.1
      · unfold wMeas winStart
        simp only [Bool.false_eq_true, if_false, if_true]
        omega
    · rw [if_neg (by simpa using hlt)]
      exact ⟨hI, by have := hI.lvl; omega⟩
  · rw [hnl]; exact OInv.init g L ptr set d.cores

end Verif.Hdagg
