import Verif.Model.PostOrder
import Verif.Proof.Paths
import Verif.Proof.Slices
import Verif.Spec.Chain

/-! # `computePostOrder`: depth-first search -/

namespace Verif
open Res

/-! ### The slots after the diagonal are the dependences -/

theorem Csc.WF.idx_first {g : Csc} (hwf : g.WF) (hf : g.DiagFirst) {u : Nat} (hu : u < g.n) :
    g.ptr u < g.ptr (u + 1) ∧ g.idx (g.ptr u) = u := by
  have h := hf u hu
  rw [List.head?_eq_getElem?] at h
  have hlt : 0 < (g.col u).length := by
    rcases Nat.eq_zero_or_pos (g.col u).length with h0 | h0
    · rw [List.getElem?_eq_none (by omega)] at h; simp at h
    · exact h0
  rw [hwf.col_length hu] at hlt
  refine ⟨by omega, ?_⟩
  rw [Csc.col, List.getElem?_take, if_pos (by omega), List.getElem?_drop] at h
  simp only [Nat.add_zero] at h
  simp [Csc.idx, h]

theorem Csc.WF.dep_iff_slot {g : Csc} (hwf : g.WF) (hf : g.DiagFirst) (ho : g.OneDiag) {u v : Nat}
    (hu : u < g.n) :
    g.Dep u v ↔ ∃ j, g.ptr u + 1 ≤ j ∧ j < g.ptr (u + 1) ∧ g.idx j = v := by
  have h1 := hwf.idx_first hf hu
  constructor
  · rintro ⟨_, hm, hne⟩
    obtain ⟨j, h2, h3, h4⟩ := (hwf.mem_col hu).1 hm
    refine ⟨j, ?_, h3, h4⟩
    by_contra hc
    have : j = g.ptr u := by omega
    subst this
    exact hne (h1.2.symm.trans h4)
  · rintro ⟨j, h2, h3, h4⟩
    refine ⟨hu, (hwf.mem_col hu).2 ⟨j, by omega, h3, h4⟩, ?_⟩
    rintro rfl
    have hc := ho u hu
    -- two positions of the diagonal
    have hle := hwf.ptr_le (a := u + 1) (by omega)
    have e : g.col u = g.idx (g.ptr u) :: slice g.i (g.ptr u + 1) (g.ptr (u + 1)) := by
      have hs : g.col u = slice g.i (g.ptr u) (g.ptr (u + 1)) := rfl
      rw [hs, ← slice_append (b := g.ptr u + 1) (by omega) (by omega),
        slice_one (by omega)]
      simp [Csc.idx, show g.ptr u < g.i.length by omega]
    rw [e, h1.2, List.count_cons_self] at hc
    have hm : u ∈ slice g.i (g.ptr u + 1) (g.ptr (u + 1)) := by
      rw [mem_slice]
      refine ⟨j, h2, h3, ?_⟩
      rw [← h4, Csc.idx, List.getD_eq_getElem?_getD, List.getElem?_eq_getElem (by omega)]
      rfl
    have := List.count_pos_iff.2 hm
    omega

namespace PostOrder

variable {g : Csc}

theorem inDegree_spec (hwf : g.WF) (hf : g.DiagFirst) (ho : g.OneDiag) :
    wp (inDegree g.n g.p g.i) (fun deg => deg.length = g.n ∧
      ∀ v, v < g.n → (deg.getD v 0 = 0 ↔ ∀ u, ¬ g.Dep u v)) := by
  unfold inDegree
  refine forRange_wp' (fun k deg => deg.length = g.n ∧
      ∀ v, v < g.n → (deg.getD v 0 = 0 ↔ ∀ u, u < k → ¬ g.Dep u v)) (Nat.zero_le _) ?_ ?_ ?_
  · refine ⟨by simp, fun v hv => ?_⟩
    rw [getD_replicate _ _ _ _ hv]
    simp
  · intro u deg _ hu ⟨hl, hd⟩
    rw [hwf.rd_p (by omega), hwf.rd_p (by omega)]
    simp only [ok_bind]
    have h1 := hwf.idx_first hf hu
    have hmn : g.ptr (u + 1) ≤ g.ptr g.n := hwf.mono_le (by omega) (le_refl _)
    refine forRange_wp' (fun j deg => deg.length = g.n ∧
      ∀ v, v < g.n → (deg.getD v 0 = 0 ↔ (∀ w, w < u → ¬ g.Dep w v) ∧
        ∀ i, g.ptr u + 1 ≤ i → i < j → g.idx i ≠ v)) (by omega) ?_ ?_ ?_
    · refine ⟨hl, fun v hv => ?_⟩
      rw [hd v hv]
      constructor
      · intro h; exact ⟨h, fun i h1 h2 => by omega⟩
      · exact fun h => h.1
    · intro j deg h2 h3 ⟨hl, hd⟩
      have hlt := hwf.idx_lt hu (j := j) (by omega) h3
      rw [hwf.rd_i (by omega)]
      simp only [ok_bind]
      rw [rd_getD 0 (by omega)]
      simp only [ok_bind]
      rw [wr_eq (by omega)]
      simp only [wp_ok]
      refine ⟨by simpa using hl, fun v hv => ?_⟩
      rw [getD_set]
      by_cases he : g.idx j = v
      · rw [if_pos ⟨he, by omega⟩]
        constructor
        · intro h; omega
        · intro h; exact absurd he (h.2 j h2 (by omega))
      · rw [if_neg (by tauto), hd v hv]
        constructor
        · rintro ⟨h4, h5⟩
          refine ⟨h4, fun i h6 h7 => ?_⟩
          by_cases hij : i = j
          · subst hij; exact he
          · exact h5 i h6 (by omega)
        · rintro ⟨h4, h5⟩
          exact ⟨h4, fun i h6 h7 => h5 i h6 (by omega)⟩
    · intro deg ⟨hl, hd⟩
      refine ⟨hl, fun v hv => ?_⟩
      rw [hd v hv]
      constructor
      · rintro ⟨h4, h5⟩ w hw hdep
        by_cases hwu : w = u
        · subst hwu
          obtain ⟨j, h6, h7, h8⟩ := (hwf.dep_iff_slot hf ho hu).1 hdep
          exact h5 j h6 h7 h8
        · exact h4 w (by omega) hdep
      · intro h
        refine ⟨fun w hw => h w (by omega), fun i h6 h7 h8 => ?_⟩
        exact h u (by omega) ((hwf.dep_iff_slot hf ho hu).2 ⟨i, h6, h7, h8⟩)
  · intro deg ⟨hl, hd⟩
    refine ⟨hl, fun v hv => ?_⟩
    rw [hd v hv]
    exact ⟨fun h u hdep => h u hdep.1 hdep, fun h u _ => h u⟩

theorem leaves_spec {deg : List Nat} {n : Nat} (hl : deg.length = n) :
    wp (leaves n deg) (fun lv => lv.Nodup ∧ ∀ v, v ∈ lv ↔ v < n ∧ deg.getD v 0 = 0) := by
  unfold leaves
  refine forRange_wp' (fun k lv => lv.Nodup ∧ ∀ v, v ∈ lv ↔ v < k ∧ deg.getD v 0 = 0)
    (Nat.zero_le _) ⟨List.nodup_nil, by simp⟩ ?_ (fun _ h => h)
  intro k lv _ hk ⟨hn, hm⟩
  rw [rd_getD 0 (by omega)]
  simp only [ok_bind]
  by_cases h0 : deg.getD k 0 = 0
  · rw [if_pos h0]
    simp only [wp_ok]
    refine ⟨?_, fun v => ?_⟩
    · rw [List.nodup_append]
      refine ⟨hn, List.nodup_singleton _, ?_⟩
      intro a ha b hb
      rw [List.mem_singleton] at hb
      have := ((hm a).1 ha).1
      omega
    · rw [List.mem_append, hm, List.mem_singleton]
      constructor
      · rintro (⟨h1, h2⟩ | rfl)
        · exact ⟨by omega, h2⟩
        · exact ⟨by omega, h0⟩
      · rintro ⟨h1, h2⟩
        by_cases hvk : v = k
        · exact .inr hvk
        · exact .inl ⟨by omega, h2⟩
  · rw [if_neg h0]
    simp only [wp_ok]
    refine ⟨hn, fun v => ?_⟩
    rw [hm]
    constructor
    · rintro ⟨h1, h2⟩; exact ⟨by omega, h2⟩
    · rintro ⟨h1, h2⟩
      refine ⟨?_, h2⟩
      by_contra hc
      have : v = k := by omega
      subst this
      exact h0 h2

/-- Invariant of the search; `fin` are the finished nodes, `lv` the leaves started. -/
structure Inv (g : Csc) (lv fin : List Nat) (s : St) : Prop where
  vlen : s.visited.length = g.n
  plen : s.post.length = g.n
  vis : ∀ v, v < g.n → (s.visited.getD v false = true ↔ v ∈ fin ∨ v ∈ s.stack)
  nodup : (fin ++ s.stack).Nodup
  lt : ∀ v ∈ fin ++ s.stack, v < g.n
  cnt : s.cnt = fin.length
  post : ∀ j x, fin[j]? = some x → s.post.getD (g.n - 1 - j) 0 = x
  closed : ∀ a x, fin[a]? = some x → ∀ c, g.Dep x c → c ∈ fin.take a
  chain : s.stack.IsChain (fun t b => g.Dep b t)
  head : ∀ t r, s.stack = t :: r → s.head = t
  orig : ∀ v ∈ fin ++ s.stack, v ∈ lv ∨ ∃ u ∈ fin ++ s.stack, g.Dep u v
  root : ∀ v ∈ lv, ∀ u, ¬ g.Dep u v
  link : ∀ t ∈ s.stack, ∀ c, g.Link t c → c ∈ fin → s.stack.head? = some t ∧ fin.getLast? = some c
  adj : ∀ a x c, fin[a]? = some x → g.Link x c → ∃ b, a = b + 1 ∧ fin[b]? = some c

theorem Inv.total {lv fin : List Nat} {s : St} (h : Inv g lv fin s) :
    fin.length + s.stack.length ≤ g.n := by
  have hsub : (fin ++ s.stack) ⊆ List.range g.n := fun v hv => List.mem_range.2 (h.lt v hv)
  have := (List.subperm_of_subset h.nodup hsub).length_le
  simpa using this

theorem chain_reach {t : Nat} : ∀ {r : List Nat}, (t :: r).IsChain (fun t b => g.Dep b t) →
    ∀ c ∈ r, Relation.TransGen g.Dep c t := by
  intro r
  induction r generalizing t with
  | nil => intro _ c hc; simp at hc
  | cons b r ih =>
    intro h c hc
    rw [List.isChain_cons_cons] at h
    rcases List.mem_cons.1 hc with rfl | hc
    · exact .single h.1
    · exact .tail (ih h.2 c hc) h.1

theorem findChild_spec (hwf : g.WF) (hf : g.DiagFirst) (ho : g.OneDiag) {s : St}
    (hv : s.visited.length = g.n) (hh : s.head < g.n) :
    wp (findChild g.p g.i s) (Ctl.post
      (fun _ => ∀ c, g.Dep s.head c → s.visited.getD c false = true)
      (fun c => g.Dep s.head c ∧ s.visited.getD c false = false)) := by
  unfold findChild
  rw [hwf.rd_p (by omega), hwf.rd_p (by omega)]
  simp only [ok_bind]
  have h1 := hwf.idx_first hf hh
  have hmn : g.ptr (s.head + 1) ≤ g.ptr g.n := hwf.mono_le (by omega) (le_refl _)
  refine wp_mono (forRangeB_wp (fun k (_ : Unit) => ∀ j, g.ptr (s.head + 1) - k ≤ j →
      j < g.ptr (s.head + 1) → s.visited.getD (g.idx j) false = true)
    (fun c => g.Dep s.head c ∧ s.visited.getD c false = false) (Nat.zero_le _) ?_ ?_) ?_
  · intro j h2 h3; omega
  · intro k _ _ hk hI
    have hj : g.ptr (s.head + 1) - 1 - k < g.ptr (s.head + 1) := by omega
    have hlt := hwf.idx_lt hh (j := g.ptr (s.head + 1) - 1 - k) (by omega) hj
    rw [hwf.rd_i (by omega)]
    simp only [ok_bind]
    rw [rd_getD false (by omega)]
    simp only [ok_bind]
    by_cases hvis : s.visited.getD (g.idx (g.ptr (s.head + 1) - 1 - k)) false = true
    · rw [if_pos hvis]
      simp only [wp_ok, Ctl.post_next]
      intro j h2 h3
      by_cases he : j = g.ptr (s.head + 1) - 1 - k
      · subst he; exact hvis
      · exact hI j (by omega) h3
    · rw [if_neg hvis]
      simp only [wp_ok, Ctl.post_brk]
      refine ⟨(hwf.dep_iff_slot hf ho hh).2 ⟨_, ?_, hj, rfl⟩, by simpa using hvis⟩
      omega
  · intro r hr
    cases r with
    | brk c => exact hr
    | next _ =>
      simp only [Ctl.post_next] at hr ⊢
      intro c hc
      obtain ⟨j, h2, h3, rfl⟩ := (hwf.dep_iff_slot hf ho hh).1 hc
      exact hr j (by omega) h3

theorem step_spec (hwf : g.WF) (hf : g.DiagFirst) (ho : g.OneDiag) (ha : g.Acyclic)
    {lv fin : List Nat} {s : St} (hI : Inv g lv fin s) (hne : s.stack ≠ []) :
    wp (stepDfs false g.n g.p g.i s) (fun s' => ∃ fin', Inv g lv fin' s' ∧
      (∃ r, fin' = fin ++ r) ∧ (∀ v ∈ s.stack, v ∈ fin' ∨ v ∈ s'.stack) ∧
      2 * (g.n - (fin'.length + s'.stack.length)) + s'.stack.length
        < 2 * (g.n - (fin.length + s.stack.length)) + s.stack.length) := by
  obtain ⟨t, rest, hst⟩ : ∃ t r, s.stack = t :: r := by
    cases hs : s.stack with
    | nil => exact absurd hs hne
    | cons t r => exact ⟨t, r, rfl⟩
  have hhead := hI.head t rest hst
  have ht : t < g.n := hI.lt t (by rw [hst]; simp)
  have htot := hI.total
  unfold stepDfs
  simp only [wp_bind]
  refine wp_mono (findChild_spec hwf hf ho hI.vlen (by rw [hhead]; exact ht)) ?_
  intro r hr
  cases r with
  | brk c =>
    simp only [Ctl.post_brk] at hr
    obtain ⟨hd, hcv⟩ := hr
    rw [hhead] at hd
    have hc := (hwf.dep_lt hd).2
    have hcn : c ∉ fin ++ s.stack := by
      intro h
      rw [List.mem_append] at h
      have := (hI.vis c hc).2 h
      rw [hcv] at this
      simp at this
    dsimp only
    rw [wr_eq (by rw [hI.vlen]; exact hc)]
    simp only [ok_bind, wp_ok]
    have hnd : (fin ++ c :: s.stack).Nodup := by
      rw [List.nodup_middle, List.nodup_cons]
      exact ⟨hcn, hI.nodup⟩
    have hI' : Inv g lv fin { s with visited := s.visited.set c true, stack := c :: s.stack,
                                     head := c } := by
      refine { hI with
        vlen := by simpa using hI.vlen, vis := ?_, nodup := hnd, lt := ?_,
        chain := ?_, head := ?_, orig := ?_, link := ?_ }
      · intro v hv
        dsimp only
        rw [getD_set, hI.vlen]
        by_cases hcv : c = v
        · subst hcv; simp [hc]
        · rw [if_neg (by tauto), hI.vis v hv, List.mem_cons]
          constructor
          · rintro (h | h)
            · exact .inl h
            · exact .inr (.inr h)
          · rintro (h | h | h)
            · exact .inl h
            · exact absurd h.symm hcv
            · exact .inr h
      · intro v hv
        simp only [List.mem_append, List.mem_cons] at hv
        rcases hv with h | rfl | h
        · exact hI.lt v (by simp [h])
        · exact hc
        · exact hI.lt v (by simp [h])
      · show (c :: s.stack).IsChain _
        rw [hst, List.isChain_cons_cons, ← hst]
        exact ⟨hd, hI.chain⟩
      · intro t' r' h
        simp only [List.cons.injEq] at h
        exact h.1
      · intro v hv
        simp only [List.mem_append, List.mem_cons] at hv
        rcases hv with h | rfl | h
        · refine (hI.orig v (by simp [h])).imp id ?_
          rintro ⟨u, h1, h2⟩
          refine ⟨u, ?_, h2⟩
          simp only [List.mem_append, List.mem_cons] at h1 ⊢
          tauto
        · exact .inr ⟨t, by rw [hst]; simp, hd⟩
        · refine (hI.orig v (by simp [h])).imp id ?_
          rintro ⟨u, h1, h2⟩
          refine ⟨u, ?_, h2⟩
          simp only [List.mem_append, List.mem_cons] at h1 ⊢
          tauto
      · intro t' ht' e hl he
        rcases List.mem_cons.1 ht' with rfl | ht'
        · exfalso
          rcases hI.orig e (by simp [he]) with h | ⟨u, h1, h2⟩
          · exact hI.root e h _ hl.1
          · rw [hl.2.2 u h2] at h1
            exact hcn h1
        · exfalso
          obtain ⟨h1, -⟩ := hI.link t' ht' e hl he
          rw [hst, List.head?_cons, Option.some.injEq] at h1
          subst h1
          have := hl.2.1 c hd
          subst this
          exact hcn (by simp [he])
    have htot' := hI'.total
    simp only [List.length_cons] at htot'
    refine ⟨fin, hI', ⟨[], by simp⟩, ?_, ?_⟩
    · intro v hv; exact .inr (List.mem_cons_of_mem _ hv)
    · simp only [List.length_cons]; omega
  | next _ =>
    simp only [Ctl.post_next] at hr
    rw [hhead] at hr
    have hlen : s.stack.length = rest.length + 1 := by rw [hst]; simp
    have hcn : s.cnt < g.n := by rw [hI.cnt]; omega
    have hw : wrZ s.post ((g.n : Int) - 1 - (s.cnt : Int)) t
        = ok (s.post.set (g.n - 1 - s.cnt) t) := by
      unfold wrZ
      rw [if_neg (by omega), wr_eq (by rw [hI.plen]; omega)]
      congr 2
      omega
    have hnd := hI.nodup
    rw [hst] at hnd
    have hnd' : (fin ++ [t] ++ rest).Nodup := by simpa using hnd
    have hchain := hI.chain
    rw [hst] at hchain
    have hI' : ∀ hd, (∀ t' r', rest = t' :: r' → hd = t') → Inv g lv (fin ++ [t])
        { s with post := s.post.set (g.n - 1 - s.cnt) t, cnt := s.cnt + 1, stack := rest,
                 head := hd } := by
      intro hd hhd
      refine { vlen := hI.vlen, plen := by simpa using hI.plen, vis := ?_, nodup := hnd', lt := ?_,
               cnt := by simp [hI.cnt], post := ?_, closed := ?_, chain := ?_, head := hhd,
               orig := ?_, root := hI.root, link := ?_, adj := ?_ }
      · intro v hv
        dsimp only
        rw [hI.vis v hv, hst]
        simp only [List.mem_append, List.mem_cons, List.not_mem_nil, or_false]
        tauto
      · intro v hv
        apply hI.lt v
        rw [hst]
        simp only [List.mem_append, List.mem_cons, List.not_mem_nil, or_false] at hv ⊢
        tauto
      · intro j x hx
        dsimp only
        rw [getD_set, hI.plen]
        rw [List.getElem?_append] at hx
        split at hx
        · next hj =>
          have : j < g.n := by omega
          rw [if_neg (by rw [hI.cnt]; omega)]
          exact hI.post j x hx
        · next hj =>
          have hj' : j = fin.length := by
            rw [List.getElem?_singleton] at hx
            split at hx
            · omega
            · simp at hx
          subst hj'
          simp at hx
          rw [if_pos ⟨by rw [hI.cnt], by omega⟩]
          exact hx
      · intro a x hx c hc
        rw [List.getElem?_append] at hx
        split at hx
        · next hlt =>
          rw [List.take_append_of_le_length (by omega)]
          exact hI.closed a x hx c hc
        · next hge =>
          have hj' : a = fin.length := by
            rw [List.getElem?_singleton] at hx
            split at hx
            · omega
            · simp at hx
          subst hj'
          simp at hx
          subst hx
          rw [List.take_left]
          have hcv := hr c hc
          have hcl := (hwf.dep_lt hc).2
          rcases (hI.vis c hcl).1 hcv with h | h
          · exact h
          · exfalso
            rw [hst, List.mem_cons] at h
            rcases h with rfl | h
            · exact hc.2.2 rfl
            · have := chain_reach hchain c h
              exact ha c (.tail this hc)
      · exact hchain.tail
      · intro v hv
        have := hI.orig v (by
          rw [hst]
          simp only [List.mem_append, List.mem_cons, List.not_mem_nil, or_false] at hv ⊢
          tauto)
        refine this.imp id ?_
        rintro ⟨u, h1, h2⟩
        refine ⟨u, ?_, h2⟩
        rw [hst] at h1
        simp only [List.mem_append, List.mem_cons, List.not_mem_nil, or_false] at h1 ⊢
        tauto
      · intro t' ht' e hl he
        dsimp only at ht' ⊢
        rw [List.mem_append, List.mem_singleton] at he
        rcases he with he | rfl
        · exfalso
          obtain ⟨h1, -⟩ := hI.link t' (by rw [hst]; exact List.mem_cons_of_mem _ ht') e hl he
          rw [hst, List.head?_cons, Option.some.injEq] at h1
          subst h1
          rw [List.nodup_append] at hnd
          exact (List.nodup_cons.1 hnd.2.1).1 ht'
        · refine ⟨?_, by simp⟩
          cases hrest : rest with
          | nil => rw [hrest] at ht'; simp at ht'
          | cons b r =>
            rw [hrest, List.isChain_cons_cons] at hchain
            rw [List.head?_cons, hl.2.2 b hchain.1]
      · intro a x c hx hl
        rw [List.getElem?_append] at hx
        split at hx
        · next hlt =>
          obtain ⟨b, h1, h2⟩ := hI.adj a x c hx hl
          exact ⟨b, h1, by rw [List.getElem?_append_left (by omega)]; exact h2⟩
        · next hge =>
          have hj' : a = fin.length := by
            rw [List.getElem?_singleton] at hx
            split at hx
            · omega
            · simp at hx
          subst hj'
          simp at hx
          subst hx
          have hcv := hr c hl.1
          have hcl := (hwf.dep_lt hl.1).2
          have hcf : c ∈ fin := by
            rcases (hI.vis c hcl).1 hcv with h | h
            · exact h
            · exfalso
              rw [hst, List.mem_cons] at h
              rcases h with rfl | h
              · exact hl.1.2.2 rfl
              · have := chain_reach hchain c h
                exact ha c (.tail this hl.1)
          obtain ⟨-, h2⟩ := hI.link t (by rw [hst]; simp) c hl hcf
          rw [List.getLast?_eq_getElem?] at h2
          have h3 : fin.length - 1 < fin.length := (List.getElem?_eq_some_iff.1 h2).1
          exact ⟨fin.length - 1, by omega, by rw [List.getElem?_append_left h3]; exact h2⟩
    rw [hst]
    dsimp only
    rw [hw]
    simp only [ok_bind]
    cases rest with
    | nil =>
      simp only [Bool.false_eq_true, if_false, wp_ok]
      refine ⟨_, hI' _ (by simp), ⟨[t], rfl⟩, ?_, ?_⟩
      · intro v hv
        simp only [List.mem_cons, List.not_mem_nil, or_false] at hv
        subst hv
        exact .inl (by simp)
      · simp
    | cons h r =>
      simp only [wp_ok]
      refine ⟨_, hI' _ (by simp), ⟨[t], rfl⟩, ?_, ?_⟩
      · intro v hv
        rw [List.mem_cons] at hv
        rcases hv with rfl | hv
        · exact .inl (by simp)
        · exact .inr hv
      · simp only [List.length_append, List.length_cons, List.length_nil]; omega

theorem dfs_spec (hwf : g.WF) (hf : g.DiagFirst) (ho : g.OneDiag) (ha : g.Acyclic)
    {lv fin : List Nat} {s : St} (hI : Inv g lv fin s) (hs : s.stack = []) {leaf : Nat}
    (hl : leaf < g.n) (hno : ∀ u, ¬ g.Dep u leaf) (hnl : leaf ∉ lv) :
    wp (dfs false g.n g.p g.i leaf s) (fun s' => ∃ fin', Inv g (lv ++ [leaf]) fin' s' ∧
      s'.stack = [] ∧ (∀ v ∈ fin, v ∈ fin') ∧ leaf ∈ fin') := by
  unfold dfs
  rw [wr_eq (by rw [hI.vlen]; exact hl)]
  simp only [ok_bind]
  have hlf : leaf ∉ fin := by
    intro h
    rcases hI.orig leaf (by simp [h]) with h | ⟨u, -, h⟩
    · exact hnl h
    · exact hno u h
  have hI1 : Inv g (lv ++ [leaf]) fin
      ⟨s.visited.set leaf true, leaf :: s.stack, leaf, s.cnt, s.post⟩ := by
    refine { plen := hI.plen, cnt := hI.cnt, post := hI.post, closed := hI.closed,
             vlen := by simpa using hI.vlen, vis := ?_, nodup := ?_, lt := ?_, chain := ?_,
             head := ?_, orig := ?_, root := ?_, link := ?_, adj := hI.adj }
    · intro v hv
      dsimp only
      rw [getD_set, hI.vlen]
      by_cases hcv : leaf = v
      · subst hcv; simp [hl]
      · rw [if_neg (by tauto), hI.vis v hv, hs]
        simp only [List.mem_cons, List.not_mem_nil, or_false]
        constructor
        · exact .inl
        · rintro (h | h)
          · exact h
          · exact absurd h.symm hcv
    · rw [hs]
      have := hI.nodup
      rw [hs, List.append_nil] at this
      rw [List.nodup_middle, List.append_nil, List.nodup_cons]
      exact ⟨hlf, this⟩
    · intro v hv
      rw [hs] at hv
      simp only [List.mem_append, List.mem_cons, List.not_mem_nil, or_false] at hv
      rcases hv with h | rfl
      · exact hI.lt v (by simp [h])
      · exact hl
    · rw [hs]; exact List.isChain_singleton _
    · intro t r h
      simp only [List.cons.injEq] at h
      exact h.1
    · intro v hv
      rw [hs] at hv
      simp only [List.mem_append, List.mem_cons, List.not_mem_nil, or_false] at hv ⊢
      rcases hv with h | rfl
      · rcases hI.orig v (by simp [h]) with h | ⟨u, h1, h2⟩
        · exact .inl (.inl h)
        · rw [hs, List.append_nil] at h1
          exact .inr ⟨u, by simp [h1], h2⟩
      · exact .inl (.inr rfl)
    · intro v hv
      rcases List.mem_append.1 hv with h | h
      · exact hI.root v h
      · rw [List.mem_singleton] at h
        rw [h]; exact hno
    · intro t ht c hlk hc
      exfalso
      rw [hs, List.mem_singleton] at ht
      subst ht
      rcases hI.orig c (by simp [hc]) with h | ⟨u, h1, h2⟩
      · exact hI.root c h _ hlk.1
      · rw [hs, List.append_nil] at h1
        rw [hlk.2.2 u h2] at h1
        exact hlf h1
  have hw := whileF_wp
    (I := fun s' : St => ∃ fin', Inv g (lv ++ [leaf]) fin' s' ∧ (∀ v ∈ fin, v ∈ fin') ∧
      (leaf ∈ fin' ∨ leaf ∈ s'.stack))
    (m := fun s' : St => 2 * (g.n - (s'.cnt + s'.stack.length)) + s'.stack.length)
    (cond := fun s : St => ok (!s.stack.isEmpty)) (body := stepDfs false g.n g.p g.i)
    (Q := fun s' => ∃ fin', Inv g (lv ++ [leaf]) fin' s' ∧
      s'.stack = [] ∧ (∀ v ∈ fin, v ∈ fin') ∧ leaf ∈ fin') ?_ (2 * g.n + 1)
      { s with head := leaf, visited := s.visited.set leaf true, stack := leaf :: s.stack } ?_ ?_
  · exact hw
  · rintro s' ⟨fin', hI', hsub, hlf'⟩
    simp only [wp_ok]
    by_cases he : s'.stack = []
    · simp only [he, List.isEmpty_nil, Bool.not_true, Bool.false_eq_true, if_false]
      refine ⟨fin', hI', trivial, hsub, ?_⟩
      rcases hlf' with h | h
      · exact h
      · rw [he] at h; simp at h
    · have hb : (!s'.stack.isEmpty) = true := by simp [he]
      rw [if_pos hb]
      have hpos : 0 < s'.stack.length := List.length_pos_iff.2 he
      refine ⟨by omega, wp_mono (step_spec hwf hf ho ha hI' he) ?_⟩
      rintro s'' ⟨fin'', hI'', ⟨r, rfl⟩, hstk, hm⟩
      refine ⟨⟨_, hI'', fun v hv => List.mem_append_left _ (hsub v hv), ?_⟩, ?_⟩
      · rcases hlf' with h | h
        · exact .inl (List.mem_append_left _ h)
        · exact hstk _ h
      · rw [hI''.cnt, hI'.cnt]; exact hm
  · have := hI1.total
    have hc := hI1.cnt
    simp only [List.length_cons] at this hc ⊢
    rw [hs] at this ⊢
    simp only [List.length_nil] at this ⊢
    omega
  · exact ⟨fin, hI1, fun _ h => h, .inr (by simp)⟩

/-- Depth decreases along dependences. -/
theorem dep_depth {u v k l : Nat} (hd : g.Dep u v) (hu : g.IsDepth u k) (hv : g.IsDepth v l) :
    k < l := hv.2 _ (.snoc hu.1 hd)

/-- A set that contains all nodes without predecessor and is closed under successors contains
everything. -/
theorem all_of_closed (hwf : g.WF) (ha : g.Acyclic) {P : Nat → Prop}
    (hroot : ∀ v, v < g.n → (∀ u, ¬ g.Dep u v) → P v)
    (hstep : ∀ u v, g.Dep u v → P u → P v) : ∀ v, v < g.n → P v := by
  have key : ∀ k v, v < g.n → g.IsDepth v k → P v := by
    intro k
    induction k using Nat.strong_induction_on with
    | _ k ih =>
      intro v hv hk
      by_cases h : ∃ u, g.Dep u v
      · obtain ⟨u, hu⟩ := h
        obtain ⟨l, hl⟩ := Csc.exists_depth hwf ha (hwf.dep_lt hu).1
        exact hstep u v hu (ih l (dep_depth hu hl hk) u (hwf.dep_lt hu).1 hl)
      · exact hroot v hv (fun u hu => h ⟨u, hu⟩)
  intro v hv
  obtain ⟨k, hk⟩ := Csc.exists_depth hwf ha hv
  exact key k v hv hk

/-- Result of the search. -/
structure Topo (g : Csc) (post : List Nat) : Prop where
  perm : post.Perm (List.range g.n)
  topo : ∀ u v (a b : Nat), g.Dep u v → post[a]? = some u → post[b]? = some v → a < b
  adj : ∀ u v (a b : Nat), g.Link u v → post[a]? = some u → post[b]? = some v → b = a + 1

/-- The searches from all nodes without predecessor, from the last to the first. -/
theorem dfsAll_spec (hwf : g.WF) (hf : g.DiagFirst) (ho : g.OneDiag) (ha : g.Acyclic) {lv : List Nat}
    (hlnd : lv.Nodup) (hlv : ∀ v, v ∈ lv ↔ v < g.n ∧ ∀ u, ¬ g.Dep u v) :
    wp (forEach lv.reverse (dfs false g.n g.p g.i)
      { visited := List.replicate g.n false, stack := [], head := 0, cnt := 0, post := List.replicate g.n 0 })
      (fun s => Topo g s.post ∧ s.visited.length = g.n ∧ ∀ v, v < g.n → s.visited.getD v false = true) := by
  refine wp_mono (forEach_wp (fun pre s => s.stack = [] ∧ ∃ fin, Inv g pre fin s ∧
    ∀ v ∈ pre, v ∈ fin) lv.reverse [] _ ?_ ?_) ?_
  · refine ⟨rfl, [], ⟨by simp, by simp, ?_, by simp, by simp, rfl, by simp, by simp,
      List.isChain_nil, by simp, by simp, by simp, by simp, by simp⟩, by simp⟩
    intro v hv
    rw [getD_replicate _ _ _ _ hv]
    simp
  · rintro pre a q s hpre ⟨hs, fin, hI, hsub⟩
    rw [List.nil_append] at hpre
    have ha' : a ∈ lv := by
      have : a ∈ lv.reverse := by rw [hpre]; simp
      simpa using this
    have hnd : (pre ++ a :: q).Nodup := by rw [← hpre]; exact List.nodup_reverse.2 hlnd
    have hna : a ∉ pre := by
      intro h
      rw [List.nodup_append] at hnd
      exact hnd.2.2 a h a (by simp) rfl
    obtain ⟨h1, h2⟩ := (hlv a).1 ha'
    refine wp_mono (dfs_spec hwf hf ho ha hI hs h1 h2 hna) ?_
    rintro s' ⟨fin', hI', hs', h3, h4⟩
    refine ⟨hs', fin', hI', ?_⟩
    intro v hv
    rcases List.mem_append.1 hv with h | h
    · exact h3 v (hsub v h)
    · rw [List.mem_singleton.1 h]; exact h4
  · rintro s ⟨hs, fin, hI, hsub⟩
    simp only [List.nil_append] at hI hsub
    have hall : ∀ v, v < g.n → v ∈ fin := by
      refine all_of_closed hwf ha ?_ ?_
      · intro v hv hno
        exact hsub v (by rw [List.mem_reverse, hlv]; exact ⟨hv, hno⟩)
      · intro u v hd hu
        obtain ⟨a, ha'⟩ := List.mem_iff_getElem?.1 hu
        exact List.mem_of_mem_take (hI.closed a u ha' v hd)
    have hnd := hI.nodup
    rw [hs, List.append_nil] at hnd
    have hperm : fin.Perm (List.range g.n) := by
      apply (List.perm_ext_iff_of_nodup hnd List.nodup_range).2
      intro v
      rw [List.mem_range]
      exact ⟨fun h => hI.lt v (by simp [h]), hall v⟩
    have hlen : fin.length = g.n := by simpa using hperm.length_eq
    have hrev : s.post = fin.reverse := by
      apply List.ext_getElem?
      intro k
      by_cases hk : k < g.n
      · rw [List.getElem?_reverse (by omega)]
        have hj : fin[fin.length - 1 - k]? = some (fin.getD (fin.length - 1 - k) 0) := by
          rw [List.getD_eq_getElem?_getD, List.getElem?_eq_getElem (by omega)]; rfl
        have := hI.post _ _ hj
        rw [hj, ← this]
        rw [List.getD_eq_getElem?_getD, show g.n - 1 - (fin.length - 1 - k) = k by omega,
          List.getElem?_eq_getElem (by rw [hI.plen]; exact hk)]
        rfl
      · rw [List.getElem?_eq_none (by rw [hI.plen]; omega),
          List.getElem?_eq_none (by simp; omega)]
    refine ⟨?_, hI.vlen, fun v hv => (hI.vis v hv).2 (.inl (hall v hv))⟩
    refine ⟨by rw [hrev]; exact (List.reverse_perm _).trans hperm, ?_, ?_⟩
    rotate_left
    · intro u v a b hl hau hbv
      rw [hrev] at hau hbv
      have hal : a < fin.reverse.length := (List.getElem?_eq_some_iff.1 hau).1
      have hbl : b < fin.reverse.length := (List.getElem?_eq_some_iff.1 hbv).1
      rw [List.length_reverse] at hal hbl
      rw [List.getElem?_reverse hal] at hau
      rw [List.getElem?_reverse hbl] at hbv
      obtain ⟨c, h1, h2⟩ := hI.adj _ u v hau hl
      have := nodup_getElem?_inj hnd h2 hbv
      omega
    intro u v a b hd hau hbv
    rw [hrev] at hau hbv
    have hal : a < fin.reverse.length := (List.getElem?_eq_some_iff.1 hau).1
    have hbl : b < fin.reverse.length := (List.getElem?_eq_some_iff.1 hbv).1
    rw [List.length_reverse] at hal hbl
    rw [List.getElem?_reverse hal] at hau
    rw [List.getElem?_reverse hbl] at hbv
    have hm := hI.closed _ u hau v hd
    obtain ⟨c, hc⟩ := List.mem_iff_getElem?.1 hm
    rw [List.getElem?_take] at hc
    split at hc
    · next hlt =>
      have := nodup_getElem?_inj hnd hc hbv
      omega
    · simp at hc

theorem computePostOrder_spec (hwf : g.WF) (hf : g.DiagFirst) (ho : g.OneDiag) (ha : g.Acyclic) :
    wp (computePostOrder false g.n g.p g.i) (Topo g) := by
  unfold computePostOrder
  simp only [wp_bind]
  refine wp_mono (inDegree_spec hwf hf ho) ?_
  rintro deg ⟨hdl, hdeg⟩
  refine wp_mono (leaves_spec hdl) ?_
  rintro lv ⟨hlnd, hlv⟩
  refine wp_mono (dfsAll_spec hwf hf ho ha hlnd ?_) ?_
  · intro v
    rw [hlv]
    constructor
    · rintro ⟨h1, h2⟩; exact ⟨h1, (hdeg v h1).1 h2⟩
    · rintro ⟨h1, h2⟩; exact ⟨h1, (hdeg v h1).2 h2⟩
  · intro s hs
    rw [wp_ok]
    exact hs.1

/-! ### Strict reading of `stack.back()` -/

/-- `x` is undefined behaviour or the same outcome as `y`. -/
def UbOr {α : Type _} (x y : Res α) : Prop := x = ub ∨ x = y

theorem UbOr.bind {α β : Type _} {x y : Res α} {f f' : α → Res β} (h : UbOr x y)
    (hf : ∀ a, UbOr (f a) (f' a)) : UbOr (x >>= f) (y >>= f') := by
  rcases h with h | h
  · subst h; exact .inl rfl
  · subst h
    cases x with
    | ok a => exact hf a
    | ub => exact .inl rfl
    | exn => exact .inr rfl
    | nofuel => exact .inr rfl

theorem UbOr.refl {α : Type _} (x : Res α) : UbOr x x := .inr rfl

theorem stepDfs_ubOr (n : Nat) (p ix : List Nat) (s : St) :
    UbOr (stepDfs true n p ix s) (stepDfs false n p ix s) := by
  unfold stepDfs
  refine (UbOr.refl _).bind fun r => ?_
  cases r with
  | brk c => exact .refl _
  | next _ =>
    cases s.stack with
    | nil => exact .refl _
    | cons t rest =>
      refine (UbOr.refl _).bind fun post => ?_
      cases rest with
      | nil => exact .inl rfl
      | cons h r => exact .refl _

theorem whileF_ubOr {σ : Type _} {cond : σ → Res Bool} {f f' : σ → Res σ}
    (hf : ∀ s, UbOr (f s) (f' s)) : ∀ k s, UbOr (whileF k cond f s) (whileF k cond f' s) := by
  intro k
  induction k with
  | zero => intro s; exact .refl _
  | succ k ih =>
    intro s
    unfold whileF
    refine (UbOr.refl _).bind fun b => ?_
    cases b with
    | false => exact .refl _
    | true => exact (hf s).bind ih

theorem forEach_ubOr {α σ : Type _} {f f' : α → σ → Res σ} (hf : ∀ a s, UbOr (f a s) (f' a s)) :
    ∀ l s, UbOr (forEach l f s) (forEach l f' s) := by
  intro l
  induction l with
  | nil => intro s; exact .refl _
  | cons a l ih => intro s; exact (hf a s).bind ih

theorem dfs_ubOr (n : Nat) (p ix : List Nat) (leaf : Nat) (s : St) :
    UbOr (dfs true n p ix leaf s) (dfs false n p ix leaf s) :=
  (UbOr.refl _).bind fun _ => whileF_ubOr (stepDfs_ubOr n p ix) _ _

theorem stepDfs_strict_ok {n : Nat} {p ix : List Nat} {s s' : St}
    (h : stepDfs true n p ix s = ok s') : s'.stack ≠ [] := by
  unfold stepDfs at h
  cases hf : findChild p ix s with
  | ok r =>
    rw [hf] at h
    simp only [ok_bind] at h
    cases r with
    | brk c =>
      dsimp only at h
      unfold wr at h
      split at h
      · simp only [ok_bind, Res.ok.injEq] at h
        subst h; simp
      · cases h
    | next _ =>
      cases hs : s.stack with
      | nil => rw [hs] at h; cases h
      | cons t rest =>
        rw [hs] at h
        dsimp only at h
        cases hw : wrZ s.post ((n : Int) - 1 - (s.cnt : Int)) t with
        | ok post =>
          rw [hw] at h
          simp only [ok_bind] at h
          cases rest with
          | nil => cases h
          | cons a r =>
            simp only [Res.ok.injEq] at h
            subst h; simp
        | ub => rw [hw] at h; cases h
        | exn => rw [hw] at h; cases h
        | nofuel => rw [hw] at h; cases h
  | ub => rw [hf] at h; cases h
  | exn => rw [hf] at h; cases h
  | nofuel => rw [hf] at h; cases h

theorem while_strict_not_ok {n : Nat} {p ix : List Nat} : ∀ k (s s' : St), s.stack ≠ [] →
    whileF k (fun s => ok (!s.stack.isEmpty)) (stepDfs true n p ix) s ≠ ok s' := by
  intro k
  induction k with
  | zero => intro s s' hs; unfold whileF; simp [hs]
  | succ k ih =>
    intro s s' hs h
    unfold whileF at h
    have hb : (!s.stack.isEmpty) = true := by simp [hs]
    simp only [ok_bind] at h
    rw [if_pos hb] at h
    cases hst : stepDfs true n p ix s with
    | ok s1 =>
      rw [hst] at h
      exact ih s1 s' (stepDfs_strict_ok hst) h
    | ub => rw [hst] at h; cases h
    | exn => rw [hst] at h; cases h
    | nofuel => rw [hst] at h; cases h

theorem dfs_strict_not_ok {n : Nat} {p ix : List Nat} {leaf : Nat} {s s' : St} :
    dfs true n p ix leaf s ≠ ok s' := by
  unfold dfs
  intro h
  cases hw : wr s.visited leaf true with
  | ok v => rw [hw] at h; exact while_strict_not_ok _ _ _ (by simp) h
  | ub => rw [hw] at h; cases h
  | exn => rw [hw] at h; cases h
  | nofuel => rw [hw] at h; cases h

theorem computePostOrder_strict (hwf : g.WF) (hf : g.DiagFirst) (ho : g.OneDiag) (ha : g.Acyclic)
    (hn : 0 < g.n) : computePostOrder true g.n g.p g.i = ub := by
  have h1 : UbOr (computePostOrder true g.n g.p g.i) (computePostOrder false g.n g.p g.i) := by
    unfold computePostOrder
    exact (UbOr.refl _).bind fun _ => (UbOr.refl _).bind fun _ =>
      (forEach_ubOr (dfs_ubOr g.n g.p g.i) _ _).bind fun _ => .refl _
  rcases h1 with h1 | h1
  · exact h1
  · exfalso
    obtain ⟨post, hp, _⟩ := wp_iff.1 (computePostOrder_spec hwf hf ho ha)
    rw [hp] at h1
    obtain ⟨deg, hdeg, hdl, hd⟩ := wp_iff.1 (inDegree_spec hwf hf ho)
    obtain ⟨lv, hlv, _, hm⟩ := wp_iff.1 (leaves_spec hdl)
    unfold computePostOrder at h1
    rw [hdeg] at h1
    simp only [ok_bind] at h1
    rw [hlv] at h1
    simp only [ok_bind] at h1
    -- there is a leaf
    have hne : ∃ v, v ∈ lv := by
      by_contra hc
      push Not at hc
      refine all_of_closed (P := fun _ => False) hwf ha ?_ (fun _ _ _ h => h) 0 hn
      intro v hv hno
      exact hc v ((hm v).2 ⟨hv, (hd v hv).2 hno⟩)
    obtain ⟨v, hv⟩ := hne
    cases hr : lv.reverse with
    | nil => simp at hr; subst hr; simp at hv
    | cons a l =>
      rw [hr] at h1
      unfold forEach at h1
      cases hds : dfs true g.n g.p g.i a
          ⟨List.replicate g.n false, [], 0, 0, List.replicate g.n 0⟩ with
      | ok s' => exact dfs_strict_not_ok hds
      | ub => rw [hds] at h1; cases h1
      | exn => rw [hds] at h1; cases h1
      | nofuel => rw [hds] at h1; cases h1

end PostOrder
end Verif
