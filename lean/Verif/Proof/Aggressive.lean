import Verif.Model.Aggressive
import Verif.Proof.GroupDag
import Verif.Proof.Graph
import Verif.Proof.Slices
import Mathlib.Data.List.GetD
import Mathlib.Data.List.Perm.Subperm

/-!
# Proofs for `aggressiveSupernodeGrouping`: the search for supernodes
-/

namespace Verif.Aggr
open Res Csc

/-! ### Offsets of a list of lists -/

/-- The pointer array of the lists `sn`. -/
def offs (sn : List (List Nat)) : List Nat :=
  (List.range (sn.length + 1)).map (fun j => (sn.take j).flatten.length)

theorem offs_length (sn : List (List Nat)) : (offs sn).length = sn.length + 1 := by simp [offs]

theorem offs_getD {sn : List (List Nat)} {j : Nat} (h : j ≤ sn.length) :
    (offs sn).getD j 0 = (sn.take j).flatten.length := by
  rw [List.getD_eq_getElem _ _ (by rw [offs_length]; omega)]
  simp [offs]

theorem offs_append (sn : List (List Nat)) (l : List Nat) :
    offs (sn ++ [l]) = offs sn ++ [sn.flatten.length + l.length] := by
  unfold offs
  rw [List.length_append, List.length_singleton, List.range_succ, List.map_append]
  congr 1
  · refine List.map_congr_left (fun j hj => ?_)
    rw [List.mem_range] at hj
    rw [List.take_append_of_le_length (by omega)]
  · simp only [List.map_cons, List.map_nil]
    rw [List.take_of_length_le (by simp)]
    simp

theorem offs_back (sn : List (List Nat)) : back (offs sn) = ok sn.flatten.length := by
  unfold back
  have : (offs sn).getLast? = some sn.flatten.length := by
    rw [List.getLast?_eq_getElem?, offs_length, Nat.add_sub_cancel, List.getElem?_eq_getElem (by rw [offs_length]; omega)]
    have := offs_getD (sn := sn) (Nat.le_refl _)
    rw [List.getD_eq_getElem _ _ (by rw [offs_length]; omega), List.take_length] at this
    rw [this]
  rw [this]

/-! ### The comparison of patterns -/

variable {g : Csc} {assigned : List (Nat × Nat)}

/-- The pattern of column `m` is that of column `h` from entry `m - h` on. -/
def Pat (g : Csc) (h m : Nat) : Prop := (g.col h).drop (m - h) = g.col m

theorem pat_iff (hwf : g.WF) {c t : Nat} (hc : c < g.n) (ht : t < g.n) (hct : c ≤ t)
    (hlen : g.ptr (c + 1) - g.ptr c - (t - c) = g.ptr (t + 1) - g.ptr t) :
    Pat g c t ↔ ∀ r, r < g.ptr (t + 1) - g.ptr t → g.idx (g.ptr c + r + (t - c)) = g.idx (g.ptr t + r) := by
  unfold Pat
  have hlc := hwf.col_length hc
  have hlt := hwf.col_length ht
  have bc := hwf.ptr_le (a := c + 1) (by omega)
  have bt := hwf.ptr_le (a := t + 1) (by omega)
  have get : ∀ u k, u < g.n → k < g.ptr (u + 1) - g.ptr u → (g.col u)[k]? = some (g.idx (g.ptr u + k)) := by
    intro u k hu hk
    have bu := hwf.ptr_le (a := u + 1) (by omega)
    unfold Csc.col Csc.idx
    rw [List.getElem?_take_of_lt hk, List.getElem?_drop, List.getD_eq_getElem _ _ (by omega),
      List.getElem?_eq_getElem (by omega)]
  constructor
  · intro h r hr
    have e := congrArg (fun l : List Nat => l[r]?) h
    rw [List.getElem?_drop, get c _ hc (by omega), get t r ht hr] at e
    have := Option.some.inj e
    rw [show g.ptr c + r + (t - c) = g.ptr c + (t - c + r) by omega]
    exact this
  · intro h
    refine List.ext_getElem? (fun r => ?_)
    rw [List.getElem?_drop]
    by_cases hr : r < g.ptr (t + 1) - g.ptr t
    · rw [get c _ hc (by omega), get t r ht hr, ← h r hr]
      rw [show g.ptr c + r + (t - c) = g.ptr c + (t - c + r) by omega]
    · rw [List.getElem?_eq_none (by omega), List.getElem?_eq_none (by omega)]

theorem pat_len (hwf : g.WF) {c t : Nat} (hc : c < g.n) (ht : t < g.n) (h : Pat g c t) :
    g.ptr (c + 1) - g.ptr c - (t - c) = g.ptr (t + 1) - g.ptr t := by
  have := congrArg List.length h
  rw [List.length_drop, hwf.col_length hc, hwf.col_length ht] at this
  exact this

theorem samePattern_wp (hwf : g.WF) {c t : Nat} (hc : c < g.n) (ht : t < g.n) (hct : c ≤ t)
    (hlen : g.ptr (c + 1) - g.ptr c - (t - c) = g.ptr (t + 1) - g.ptr t)
    (hpos : 0 < g.ptr (t + 1) - g.ptr t) {off : Int} (hoff : off = ((g.ptr (t + 1) - g.ptr t : Nat) : Int)) :
    wp (samePattern g.p g.i c t off) (fun b => b = true ↔ Pat g c t) := by
  unfold samePattern
  rw [pat_iff hwf hc ht hct hlen, wp_bind, hoff, Int.toNat_natCast]
  have bc := hwf.ptr_le (a := c + 1) (by omega)
  have bt := hwf.ptr_le (a := t + 1) (by omega)
  refine wp_mono (forRangeB_wp (fun r (_ : Unit) => ∀ k, k < r →
      g.idx (g.ptr c + k + (t - c)) = g.idx (g.ptr t + k))
    (fun (_ : Unit) => ∃ k, k < g.ptr (t + 1) - g.ptr t ∧
      g.idx (g.ptr c + k + (t - c)) ≠ g.idx (g.ptr t + k)) (Nat.zero_le _) (fun k hk => by omega) ?_) ?_
  · intro r _ _ hr hI
    rw [hwf.rd_p (by omega), ok_bind]
    have e : ((g.ptr c : Int) + r + ((t : Int) - c)) = ((g.ptr c + r + (t - c) : Nat) : Int) := by omega
    rw [e]
    unfold rdZ
    rw [if_neg (by omega), Int.toNat_natCast, rd_getD 0 (by omega), ok_bind, hwf.rd_p (by omega), ok_bind,
      rd_getD 0 (by omega), ok_bind]
    change wp (if g.idx (g.ptr c + r + (t - c)) ≠ g.idx (g.ptr t + r) then _ else _) _
    by_cases h : g.idx (g.ptr c + r + (t - c)) = g.idx (g.ptr t + r)
    · rw [if_neg (by simpa using h), wp_ok, Ctl.post_next]
      intro k hk
      rcases Nat.lt_succ_iff_lt_or_eq.1 hk with h' | rfl
      · exact hI k h'
      · exact h
    · rw [if_pos h, wp_ok, Ctl.post_brk]
      exact ⟨r, hr, h⟩
  · rintro (u | u) h
    · rw [Ctl.post_next] at h
      rw [wp_ok]
      exact ⟨fun _ => h, fun _ => rfl⟩
    · rw [Ctl.post_brk] at h
      obtain ⟨k, h1, h2⟩ := h
      rw [wp_ok]
      exact ⟨fun h => by simp at h, fun h => absurd (h k h1) h2⟩

/-! ### One supernode -/

/-- `s` stores the supernodes `sn`, which are disjoint and marked. -/
structure Core (n : Nat) (sn : List (List Nat)) (s : St) : Prop where
  ptr : s.ptr = offs sn
  set : s.set = sn.flatten
  len : s.grouped.length = n
  iff : ∀ v, v < n → (s.grouped.getD v false = true ↔ v ∈ sn.flatten)
  nodup : sn.flatten.Nodup
  lt : ∀ v ∈ sn.flatten, v < n

/-- `m` may join the supernode of `h`. -/
def MemOk (g : Csc) (assigned : List (Nat × Nat)) (h m : Nat) : Prop :=
  h < m ∧ m ∈ g.col h ∧ assigned[h]? = assigned[m]? ∧ Pat g h m

theorem Core.add {n : Nat} {sn : List (List Nat)} {s : St} (h : Core n sn s) {c : Nat} (hc : c < n)
    (hn : c ∉ sn.flatten) {gr : List Bool} (hg : gr = s.grouped.set c true) :
    Core n (sn ++ [[c]]) ⟨gr, s.ptr ++ [sn.flatten.length + 1], s.set ++ [c]⟩ := by
  refine ⟨?_, ?_, ?_, ?_, ?_, ?_⟩
  · dsimp only; rw [h.ptr, offs_append]; rfl
  · dsimp only; rw [h.set, List.flatten_append]; rfl
  · dsimp only; rw [hg, List.length_set, h.len]
  · intro v hv
    dsimp only
    rw [hg, getD_set, h.len, List.flatten_append]
    by_cases hvc : c = v
    · subst hvc; rw [if_pos ⟨rfl, hc⟩]; simp
    · rw [if_neg (by tauto), h.iff v hv]
      simp; tauto
  · rw [List.flatten_append]
    refine List.Nodup.append h.nodup (by simp) ?_
    intro v hv hv'
    simp at hv'
    subst hv'; exact hn hv
  · intro v hv
    rw [List.flatten_append] at hv
    simp only [List.mem_append] at hv
    rcases hv with hv | hv
    · exact h.lt v hv
    · simp at hv; subst hv; exact hc

theorem Core.join {n : Nat} {sn : List (List Nat)} {l : List Nat} {s : St} (h : Core n (sn ++ [l]) s) {t : Nat}
    (ht : t < n) (hn : t ∉ (sn ++ [l]).flatten) :
    ∃ s', join t s = ok s' ∧ Core n (sn ++ [l ++ [t]]) s' := by
  unfold Aggr.join
  rw [h.ptr, offs_back, ok_bind, wr_eq (by rw [h.len]; exact ht), ok_bind]
  refine ⟨_, rfl, ?_⟩
  have e : (sn ++ [l ++ [t]]).flatten = (sn ++ [l]).flatten ++ [t] := by simp
  refine ⟨?_, ?_, ?_, ?_, ?_, ?_⟩
  · dsimp only
    rw [offs_append, offs_append, List.length_append, List.length_singleton, Nat.add_sub_cancel,
      List.set_append_right _ _ (Nat.le_refl _), Nat.sub_self]
    simp
    omega
  · dsimp only; rw [h.set, e]
  · dsimp only; rw [List.length_set, h.len]
  · intro v hv
    dsimp only
    rw [getD_set, h.len, e]
    by_cases hvc : t = v
    · subst hvc; rw [if_pos ⟨rfl, ht⟩]; simp
    · rw [if_neg (by tauto), h.iff v hv, List.mem_append, List.mem_singleton]
      tauto
  · rw [e]
    refine List.Nodup.append h.nodup (by simp) ?_
    intro v hv hv'
    rw [List.mem_singleton] at hv'
    subst hv'; exact hn hv
  · intro v hv
    rw [e, List.mem_append, List.mem_singleton] at hv
    rcases hv with hv | rfl
    · exact h.lt v hv
    · exact ht

theorem scan_wp (hwf : g.WF) (hne : ∀ u, u < g.n → g.col u ≠ []) (ha : assigned.length = g.n) {c : Nat} (hc : c < g.n)
    {init : List (List Nat)} :
    ∀ (cand : List Nat) (rest : List Nat) (s : St), (∀ t ∈ cand, t ∈ g.col c) →
      Core g.n (init ++ [c :: rest]) s → (∀ v, v ≤ c → v ∈ (init ++ [c :: rest]).flatten) →
      (∀ m ∈ rest, MemOk g assigned c m) →
      wp (scan g.p g.i assigned c cand s) (fun s' => ∃ rest', Core g.n (init ++ [c :: rest']) s' ∧
        (∀ m ∈ rest', MemOk g assigned c m) ∧ (∀ m ∈ rest, m ∈ rest') ∧
        ∀ pre m post, cand = pre ++ m :: post → (∀ k ∈ pre, Pat g c k) → Pat g c m →
          assigned[c]? = assigned[m]? → m ∈ (init ++ [c :: rest']).flatten) := by
  intro cand
  induction cand with
  | nil =>
    intro rest s _ hC hv hm
    unfold scan
    rw [wp_ok]
    exact ⟨rest, hC, hm, fun m h => h, fun pre m post h => by simp at h⟩
  | cons t cand ih =>
    intro rest s hcand hC hv hm
    have htc := hcand t (List.mem_cons_self ..)
    have ht := hwf.range c hc t htc
    have hcand' : ∀ x ∈ cand, x ∈ g.col c := fun x hx => hcand x (List.mem_cons_of_mem _ hx)
    -- the candidate is left out
    have skip : (Pat g c t → assigned[c]? = assigned[t]? → t ∈ (init ++ [c :: rest]).flatten) →
        wp (scan g.p g.i assigned c cand s) (fun s' => ∃ rest', Core g.n (init ++ [c :: rest']) s' ∧
          (∀ m ∈ rest', MemOk g assigned c m) ∧ (∀ m ∈ rest, m ∈ rest') ∧
          ∀ pre m post, t :: cand = pre ++ m :: post → (∀ k ∈ pre, Pat g c k) → Pat g c m →
          assigned[c]? = assigned[m]? → m ∈ (init ++ [c :: rest']).flatten) := by
      intro hskip
      refine wp_mono (ih rest s hcand' hC hv hm) ?_
      rintro s' ⟨rest', k1, k2, k3, k4⟩
      refine ⟨rest', k1, k2, k3, ?_⟩
      intro pre m post he hpre hpat has
      cases pre with
      | nil =>
        simp only [List.nil_append, List.cons.injEq] at he
        obtain ⟨rfl, _⟩ := he
        have := hskip hpat has
        simp only [List.flatten_append, List.flatten_cons, List.flatten_nil, List.append_nil, List.mem_append,
          List.mem_cons] at this ⊢
        rcases this with h | h | h
        · exact .inl h
        · exact .inr (.inl h)
        · exact .inr (.inr (k3 _ h))
      | cons x pre =>
        simp only [List.cons_append, List.cons.injEq] at he
        exact k4 pre m post he.2 (fun k hk => hpre k (List.mem_cons_of_mem _ hk)) hpat has
    unfold scan
    rw [rd_eq (show c < assigned.length by omega), ok_bind, rd_eq (show t < assigned.length by omega), ok_bind]
    by_cases h1 : assigned[c] = assigned[t]
    · rw [if_neg (by simpa using h1), rd_getD false (by rw [hC.len]; exact ht), ok_bind]
      cases hgr : s.grouped.getD t false with
      | true =>
        rw [if_pos rfl]
        exact skip (fun _ _ => (hC.iff t ht).1 hgr)
      | false =>
        rw [if_neg (by simp)]
        have hnot : t ∉ (init ++ [c :: rest]).flatten := by
          intro h
          rw [(hC.iff t ht).2 h] at hgr
          simp at hgr
        have hct : c < t := by
          by_contra h
          exact hnot (hv t (by omega))
        have hpos : 0 < g.ptr (t + 1) - g.ptr t := by
          rw [← hwf.col_length ht]
          exact List.length_pos_of_ne_nil (hne t ht)
        have mc := hwf.mono_le (a := c) (b := c + 1) (by omega) (by omega)
        have mt := hwf.mono_le (a := t) (b := t + 1) (by omega) (by omega)
        rw [hwf.rd_p (k := t + 1) (by omega), ok_bind, hwf.rd_p (k := t) (by omega), ok_bind,
          hwf.rd_p (k := c + 1) (by omega), ok_bind, hwf.rd_p (k := c) (by omega), ok_bind]
        dsimp only
        by_cases h2 : (g.ptr (c + 1) : Int) - g.ptr c - ((t : Int) - c) = (g.ptr (t + 1) : Int) - g.ptr t
        · rw [if_neg (by simpa using h2), wp_bind]
          refine wp_mono (samePattern_wp hwf hc ht (by omega) (by omega) hpos (by omega)) ?_
          intro b hb
          cases b with
          | false =>
            rw [if_neg (by simp)]
            exact skip (fun hp => by have := hb.2 hp; simp at this)
          | true =>
            rw [if_pos rfl]
            have hpat := hb.1 rfl
            obtain ⟨s', e1, e2⟩ := hC.join ht hnot
            rw [e1, ok_bind]
            have e : init ++ [c :: rest ++ [t]] = init ++ [c :: (rest ++ [t])] := rfl
            rw [e] at e2
            have hmem : ∀ v, v ∈ (init ++ [c :: rest]).flatten → v ∈ (init ++ [c :: (rest ++ [t])]).flatten := by
              intro v hv
              simp only [List.flatten_append, List.flatten_cons, List.flatten_nil, List.append_nil, List.mem_append,
                List.mem_cons] at hv ⊢
              tauto
            refine wp_mono (ih (rest ++ [t]) s' hcand' e2 (fun v h => hmem v (hv v h)) ?_) ?_
            · intro m hm'
              rw [List.mem_append, List.mem_singleton] at hm'
              rcases hm' with h | rfl
              · exact hm m h
              · refine ⟨hct, htc, ?_, hpat⟩
                rw [List.getElem?_eq_getElem (by omega), List.getElem?_eq_getElem (by omega), h1]
            · rintro s'' ⟨rest', k1, k2, k3, k4⟩
              refine ⟨rest', k1, k2, fun m h => k3 m (List.mem_append_left _ h), ?_⟩
              intro pre m post he hpre hpat' has
              cases pre with
              | nil =>
                simp only [List.nil_append, List.cons.injEq] at he
                obtain ⟨rfl, _⟩ := he
                have := k3 _ (List.mem_append_right _ (List.mem_singleton.2 rfl))
                simp only [List.flatten_append, List.flatten_cons, List.flatten_nil, List.append_nil, List.mem_append,
                  List.mem_cons]
                exact .inr (.inr this)
              | cons x pre =>
                simp only [List.cons_append, List.cons.injEq] at he
                exact k4 pre m post he.2 (fun k hk => hpre k (List.mem_cons_of_mem _ hk)) hpat' has
        · rw [if_pos h2, wp_ok]
          have hnp : ¬ Pat g c t := by
            intro hp
            have := pat_len hwf hc ht hp
            omega
          refine ⟨rest, hC, hm, fun m h => h, ?_⟩
          intro pre m post he hpre hpat' has
          cases pre with
          | nil =>
            simp only [List.nil_append, List.cons.injEq] at he
            obtain ⟨rfl, _⟩ := he
            exact absurd hpat' hnp
          | cons x pre =>
            simp only [List.cons_append, List.cons.injEq] at he
            obtain ⟨rfl, _⟩ := he
            exact absurd (hpre _ (List.mem_cons_self ..)) hnp
    · rw [if_pos h1]
      refine skip (fun _ has => ?_)
      rw [List.getElem?_eq_getElem (by omega), List.getElem?_eq_getElem (by omega)] at has
      exact absurd (Option.some.inj has) h1

theorem candidates_eq (hwf : g.WF) {c : Nat} (hc : c < g.n) (hne : g.col c ≠ []) :
    candidates g.p g.i c = ok (g.col c).tail := by
  have hpos : 0 < g.ptr (c + 1) - g.ptr c := by
    rw [← hwf.col_length hc]; exact List.length_pos_of_ne_nil hne
  have bc := hwf.ptr_le (a := c + 1) (by omega)
  suffices h : wp (candidates g.p g.i c) (fun l => l = (g.col c).tail) by
    obtain ⟨l, h1, rfl⟩ := wp_iff.1 h
    exact h1
  unfold candidates
  rw [hwf.rd_p (by omega), ok_bind, hwf.rd_p (by omega), ok_bind, if_neg (by omega)]
  refine forRange_wp' (fun k l => l = slice g.i (g.ptr c + 1) k) (by omega) (by rw [slice_self]) ?_ ?_
  · rintro k _ h1 h2 rfl
    rw [rd_eq (show k < g.i.length by omega), ok_bind, wp_ok]
    exact (slice_succ h1 (List.getElem?_eq_getElem (by omega))).symm
  · rintro _ rfl
    unfold slice Csc.col
    rw [← List.drop_one, List.drop_take, List.drop_drop]
    congr 1

theorem advance_wp {n : Nat} {gr : List Bool} (hl : gr.length = n) {c : Nat} (hc : c ≤ n) :
    wp (advance n gr c) (fun d => c ≤ d ∧ d ≤ n ∧ (∀ v, c ≤ v → v < d → gr.getD v false = true) ∧
      (d < n → gr.getD d false = false)) := by
  unfold advance
  refine whileF_wp (fun d => c ≤ d ∧ d ≤ n ∧ (∀ v, c ≤ v → v < d → gr.getD v false = true)) (fun d => n - d) ?_ _ _
    (by omega) ⟨Nat.le_refl _, hc, fun v h1 h2 => by omega⟩
  rintro d ⟨h1, h2, h3⟩
  by_cases hd : d = n
  · rw [if_pos hd, wp_ok, if_neg (by simp)]
    exact ⟨h1, h2, h3, fun h => by omega⟩
  · rw [if_neg hd, rd_getD false (by omega), wp_ok]
    cases hb : gr.getD d false with
    | true =>
      rw [if_pos rfl]
      refine ⟨by omega, ?_⟩
      rw [wp_ok]
      refine ⟨⟨by omega, by omega, fun v k1 k2 => ?_⟩, by omega⟩
      rcases Nat.lt_succ_iff_lt_or_eq.1 k2 with h | rfl
      · exact h3 v k1 h
      · exact hb
    | false =>
      rw [if_neg (by simp)]
      exact ⟨h1, h2, h3, fun _ => rfl⟩

/-- Supernode `l` after the supernodes `init`. -/
def GoodAt (g : Csc) (assigned : List (Nat × Nat)) (init : List (List Nat)) (l : List Nat) : Prop :=
  ∃ h rest, l = h :: rest ∧ (∀ m ∈ rest, MemOk g assigned h m) ∧
    ∀ m, h < m → m < g.n → (∀ k, h < k → k ≤ m → Pat g h k) → assigned[h]? = assigned[m]? → m ∈ (init ++ [l]).flatten

theorem supernodes_wp (hwf : g.WF) (hd : g.DiagFirst) (ha : assigned.length = g.n) :
    wp (supernodes g.n g.p g.i assigned) (fun s => ∃ sn, Core g.n sn s ∧ sn.flatten.Perm (List.range g.n) ∧
      ∀ j (hj : j < sn.length), GoodAt g assigned (sn.take j) sn[j]) := by
  have hne : ∀ u, u < g.n → g.col u ≠ [] := by
    intro u hu h
    have := hd u hu
    rw [h] at this
    simp at this
  unfold supernodes
  rw [wp_bind]
  refine wp_mono (whileF_wp (fun t : Nat × St => ∃ sn, Core g.n sn t.2 ∧
    (∀ j (hj : j < sn.length), GoodAt g assigned (sn.take j) sn[j]) ∧ t.1 ≤ g.n ∧
    (∀ v, v < t.1 → v ∈ sn.flatten) ∧ (t.1 < g.n → t.1 ∉ sn.flatten))
    (Q := fun t : Nat × St => ∃ sn, Core g.n sn t.2 ∧
    (∀ j (hj : j < sn.length), GoodAt g assigned (sn.take j) sn[j]) ∧
    (∀ v, v < g.n → v ∈ sn.flatten)) (fun t => g.n - t.1) ?_ _ _ (by dsimp only; omega) ?_) ?_
  · rintro ⟨c, s⟩ ⟨sn, h1, h2, h3, h4, h5⟩
    dsimp only at *
    rw [wp_ok]
    by_cases hc : c < g.n
    · rw [decide_eq_true hc, if_pos rfl]
      refine ⟨by omega, ?_⟩
      rw [wp_bind]
      unfold oneNode
      rw [candidates_eq hwf hc (hne c hc), ok_bind, wr_eq (by rw [h1.len]; exact hc), ok_bind, h1.ptr, offs_back,
        ok_bind]
      have hC := h1.add hc (h5 hc) rfl
      rw [h1.ptr] at hC
      refine wp_mono (scan_wp hwf hne ha hc (init := sn) (g.col c).tail [] _
        (fun t ht => List.mem_of_mem_tail ht) hC ?_ (fun m hm => by simp at hm)) ?_
      · intro v hv
        rcases Nat.lt_or_eq_of_le hv with h | rfl
        · simp only [List.flatten_append, List.mem_append]; exact .inl (h4 v h)
        · simp
      · rintro s' ⟨rest, k1, k2, _, k3⟩
        rw [wp_bind]
        refine wp_mono (advance_wp k1.len (c := c) (by omega)) ?_
        rintro d ⟨l1, l2, l3, l4⟩
        have hcm : s'.grouped.getD c false = true := (k1.iff c hc).2 (by simp)
        have hcd : c < d := by
          rcases Nat.lt_or_eq_of_le l1 with h | rfl
          · exact h
          · rw [l4 hc] at hcm; simp at hcm
        rw [wp_ok]
        refine ⟨⟨sn ++ [c :: rest], k1, ?_, l2, ?_, ?_⟩, by dsimp only; omega⟩
        · intro j hj
          rw [List.length_append, List.length_singleton] at hj
          rcases Nat.lt_succ_iff_lt_or_eq.1 hj with h | rfl
          · rw [List.take_append_of_le_length (by omega), List.getElem_append_left h]
            exact h2 j h
          · rw [List.take_append_of_le_length (Nat.le_refl _), List.take_length]
            simp only [List.getElem_append_right (Nat.le_refl _), Nat.sub_self, List.getElem_cons_zero]
            refine ⟨c, rest, rfl, k2, ?_⟩
            intro m hcm' hmn hpat has
            -- the first candidates are `c + 1, ..., m`
            have hget : ∀ q, c + q < g.n → (q = 0 ∨ Pat g c (c + q)) → (g.col c)[q]? = some (c + q) := by
              intro q hq h
              rcases h with rfl | h
              · have := hd c hc
                rw [List.head?_eq_getElem?] at this
                exact this
              · have := hd (c + q) hq
                rw [← h, List.head?_drop, Nat.add_sub_cancel_left] at this
                exact this
            have hget' : ∀ q, c + q ≤ m → (g.col c)[q]? = some (c + q) := by
              intro q hq
              refine hget q (by omega) ?_
              rcases Nat.eq_zero_or_pos q with h | h
              · exact .inl h
              · exact .inr (hpat _ (by omega) hq)
            have hm1 := hget' (m - c) (by omega)
            rw [show c + (m - c) = m by omega] at hm1
            obtain ⟨hlen, hval⟩ := List.getElem?_eq_some_iff.1 hm1
            refine k3 ((g.col c).tail.take (m - c - 1)) m ((g.col c).tail.drop (m - c)) ?_ ?_ (hpat m hcm' (Nat.le_refl _)) has
            · conv_lhs => rw [← List.take_append_drop (m - c - 1) (g.col c).tail]
              congr 1
              rw [← List.drop_one, List.drop_drop, List.drop_drop, show 1 + (m - c - 1) = m - c by omega,
                List.drop_eq_getElem_cons hlen, hval, show 1 + (m - c) = m - c + 1 by omega]
            · intro k hk
              obtain ⟨q, hq⟩ := List.mem_iff_getElem?.1 hk
              rw [List.getElem?_take] at hq
              split_ifs at hq with hql
              rw [List.getElem?_tail, hget' (q + 1) (by omega)] at hq
              have := Option.some.inj hq
              exact hpat k (by omega) (by omega)
        · intro v hv
          by_cases hvc : v < c
          · simp only [List.flatten_append, List.mem_append]; exact .inl (h4 v hvc)
          · exact (k1.iff v (by omega)).1 (l3 v (by omega) hv)
        · intro hdn hmem
          have := (k1.iff d hdn).2 hmem
          rw [l4 hdn] at this
          simp at this
    · rw [decide_eq_false hc, if_neg (by simp)]
      exact ⟨sn, h1, h2, fun v hv => h4 v (by omega)⟩
  · refine ⟨[], ⟨rfl, rfl, by simp, ?_, by simp, by simp⟩, fun j hj => absurd hj (Nat.not_lt_zero _), Nat.zero_le _,
      fun v hv => absurd hv (Nat.not_lt_zero _), fun _ => by simp⟩
    intro v hv
    dsimp only
    rw [getD_replicate _ _ _ _ hv]
    simp
  · rintro ⟨c, s⟩ ⟨sn, h1, h2, h3⟩
    rw [wp_ok]
    refine ⟨sn, h1, ?_, h2⟩
    refine (List.perm_ext_iff_of_nodup h1.nodup List.nodup_range).2 (fun v => ?_)
    rw [List.mem_range]
    exact ⟨h1.lt v, h3 v⟩

end Verif.Aggr
