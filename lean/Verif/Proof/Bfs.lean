import Verif.Model.Lbc
import Verif.Proof.Graph
import Verif.Proof.Counts
import Mathlib.Data.List.GetD

/-! # The breadth first search inside a window (`modified_BFS_CSC`) -/

namespace Verif.Lbc
open Res Csc

variable {g : Csc}

theorem remIn_congr {S T : List Nat} (h : ∀ x, x ∈ S ↔ x ∈ T) (v : Nat) :
    g.remIn S v = g.remIn T v := by
  unfold remIn
  simp only [h]

theorem remIn_mono {S T : List Nat} (h : ∀ x, x ∈ S → x ∈ T) {v : Nat} (h0 : g.remIn S v = 0) :
    g.remIn T v = 0 := by
  rw [remIn_eq_zero] at h0 ⊢
  exact fun u hu => h u (h0 u hu)

/-- What the search may assume: `S` are the nodes that count as done, `W` the window, `lv` its
leaves. -/
structure BfsPre (g : Csc) (S W lv : List Nat) (lab : List Int) (s : Bfs) : Prop where
  sub : ∀ v ∈ W, v < g.n ∧ v ∉ S
  nodup : W.Nodup
  lvNodup : lv.Nodup
  lvSub : ∀ v ∈ lv, v ∈ W ∧ g.remIn S v = 0
  inner : ∀ v ∈ W, v ∉ lv → g.remIn S v ≠ 0
  preds : ∀ u v, g.Dep u v → v ∈ W → u ∈ S ∨ u ∈ W
  labLen : lab.length = g.n
  labOk : ∀ v ∈ W, 0 ≤ lab.getD v 0 ∧ lab.getD v 0 < s.parts.length
  queue : s.queue = []
  degLen : s.deg.length = g.n
  deg : ∀ x, x < g.n → x ∉ S → s.deg.getD x 0 = 1 + (g.remIn S x : Int)
  visLen : s.visited.length = g.n
  vis : ∀ v ∈ W, s.visited.getD v true = false
  out : ∀ u ∈ W, ∀ c ∈ g.col u, c ∉ W → s.visited.getD c true = true

/-- State of the search: `P` leaves started, `D` nodes listed, `Q` nodes in the queue. -/
structure BInv (g : Csc) (S W lv : List Nat) (lab : List Int) (s0 : Bfs) (P D Q : List Nat)
    (s : Bfs) : Prop where
  queue : s.queue = Q
  nodup : (D ++ Q).Nodup
  sub : ∀ v ∈ D ++ Q, v ∈ W
  degLen : s.deg.length = g.n
  deg : ∀ x, x < g.n → x ∉ S ++ D → s.deg.getD x 0 = 1 + (g.remIn (S ++ D) x : Int)
  mem : ∀ v ∈ W, v ∈ D ++ Q ↔ (v ∈ lv ∧ v ∈ P) ∨ (v ∉ lv ∧ g.remIn (S ++ D) v = 0)
  topo : ∀ v ∈ D, ∀ u ∈ W, g.Dep u v → [u, v].Sublist D
  visLen : s.visited.length = g.n
  vis : ∀ x, s.visited.getD x true = (s0.visited.getD x true || decide (x ∈ D))
  partsLen : s.parts.length = s0.parts.length
  parts : ∀ q, s.parts.getD q [] = s0.parts.getD q []
    ++ D.filter (fun v => decide (lab.getD v 0 = (q : Int)))

theorem BInv.rem_zero {S W lv : List Nat} {lab : List Int} {s0 : Bfs} {P D Q : List Nat} {s : Bfs}
    (hp : BfsPre g S W lv lab s0) (h : BInv g S W lv lab s0 P D Q s) {v : Nat} (hv : v ∈ D ++ Q) :
    g.remIn (S ++ D) v = 0 := by
  rcases (h.mem v (h.sub v hv)).1 hv with ⟨h1, _⟩ | ⟨_, h2⟩
  · exact remIn_mono (fun x hx => List.mem_append_left _ hx) (hp.lvSub v h1).2
  · exact h2

theorem bfsPop_wp (hwf : g.WF) (hd1 : g.OneDiag) {S W lv : List Nat} {lab : List Int} {s0 : Bfs}
    (hp : BfsPre g S W lv lab s0) {P D Q : List Nat} {u : Nat} {s : Bfs}
    (h : BInv g S W lv lab s0 P D (u :: Q) s) :
    wp (bfsPop g.p g.i lab s) (fun s' => ∃ Q', BInv g S W lv lab s0 P (D ++ [u]) Q' s' ∧
      s'.visited.count false < s.visited.count false) := by
  obtain ⟨hq, hnd, hsub, hdl, hdeg, hmem, htopo, hvl, hvis, hpl, hparts⟩ := id h
  have huW : u ∈ W := hsub u (by simp)
  obtain ⟨hun, huS⟩ := hp.sub u huW
  have huD : u ∉ D := by
    intro hc
    rw [List.nodup_append] at hnd
    exact hnd.2.2 u hc u (by simp) rfl
  have hur : g.remIn (S ++ D) u = 0 := h.rem_zero hp (by simp)
  obtain ⟨hl0, hl1⟩ := hp.labOk u huW
  obtain ⟨q0, hq0⟩ : ∃ q0 : Nat, lab.getD u 0 = q0 := ⟨(lab.getD u 0).toNat, by omega⟩
  have hm := hwf.mono u hun
  have hle := hwf.ptr_le (a := u + 1) (by omega)
  unfold bfsPop
  rw [hq]
  dsimp only
  rw [wr_eq (by omega), ok_bind, rd_getD 0 (by rw [hp.labLen]; exact hun), ok_bind, hq0]
  unfold rdZ wrZ
  rw [if_neg (by omega), Int.toNat_natCast, rd_getD [] (by omega), ok_bind, if_neg (by omega),
    wr_eq (by omega), ok_bind, hwf.rd_p (by omega), ok_bind, hwf.rd_p (by omega), ok_bind]
  unfold forRange
  rw [forRange_rd g.i bfsEdge _ _ _ (by omega)]
  change wp (forEach (g.col u) bfsEdge _) _
  have hvu : s.visited.getD u true = false := by
    rw [hvis, hp.vis u huW]; simpa using huD
  have hvis' : ∀ x, (s.visited.set u true).getD x true
      = (s0.visited.getD x true || decide (x ∈ D ++ [u])) := by
    intro x
    rw [getD_set]
    by_cases hx : x = u
    · subst hx
      rw [if_pos ⟨rfl, by omega⟩]; simp
    · rw [if_neg (by simp; omega), hvis]
      simp [hx]
  have hparts' : ∀ q, (s.parts.set q0 (s.parts.getD q0 [] ++ [u])).getD q [] = s0.parts.getD q []
      ++ (D ++ [u]).filter (fun v => decide (lab.getD v 0 = (q : Int))) := by
    intro q
    rw [getD_set, List.filter_append]
    by_cases hx : q = q0
    · subst hx
      rw [if_pos ⟨rfl, by omega⟩, hparts, List.append_assoc]
      congr 2
      rw [List.filter_singleton, hq0]; simp
    · rw [if_neg (by simp; omega), hparts]
      congr 1
      have : ¬ ((q0 : Int) = q) := by omega
      rw [List.filter_singleton, hq0]; simp [this]
  -- nodes reached by an edge from `u`
  have hcol : ∀ a ∈ g.col u, a ≠ u → a ∉ D := by
    intro a ha hau hc
    have := (htopo a hc u huW ⟨hun, ha, fun h => hau h.symm⟩).subset (a := u) (by simp)
    exact huD this
  have hdu : (g.col u).count u = 1 := hd1 u hun
  have key := forEach_wp (fun (p : List Nat) (t : Bfs) => t.deg.length = g.n ∧
    t.visited = s.visited.set u true ∧
    t.parts = s.parts.set q0 (s.parts.getD q0 [] ++ [u]) ∧
    (∀ x, x < g.n → x ∉ S ++ D → t.deg.getD x 0 = 1 + (g.remIn (S ++ D) x : Int) - p.count x) ∧
    ∃ new : List Nat, t.queue = Q ++ new ∧ new.Nodup ∧
      ∀ x, x ∈ new ↔ x ∈ W ∧ x ≠ u ∧ x ∈ p ∧ g.remIn (S ++ D) x = p.count x)
    (f := bfsEdge) (g.col u) [] ⟨Q, s.visited.set u true, s.deg,
      s.parts.set q0 (s.parts.getD q0 [] ++ [u])⟩ ⟨hdl, rfl, rfl, ?_, [], by simp, by simp, ?_⟩ ?_
  · refine wp_mono key ?_
    rintro t ⟨t1, t2, t3, t4, new, t5, t6, t7⟩
    rw [List.nil_append] at t4 t7
    have hrem : ∀ x, g.remIn (S ++ D) x = g.remIn (S ++ (D ++ [u])) x
        + (if u = x then 0 else (g.col u).count x) := by
      intro x
      rw [remIn_append hun (by simp [huS, huD]), List.append_assoc]
    have hnew : ∀ x ∈ new, x ∉ D ++ u :: Q := by
      intro x hx hc
      obtain ⟨_, _, h3, h4⟩ := (t7 x).1 hx
      rw [h.rem_zero hp hc] at h4
      exact (List.count_eq_zero.1 h4.symm) h3
    refine ⟨Q ++ new, ⟨t5, ?_, ?_, t1, ?_, ?_, ?_, ?_, ?_, ?_, ?_⟩, ?_⟩
    · have e : D ++ [u] ++ (Q ++ new) = (D ++ u :: Q) ++ new := by simp
      rw [e, List.nodup_append]
      refine ⟨hnd, t6, ?_⟩
      rintro a ha b hb rfl
      exact hnew a hb ha
    · intro v hv
      have e : D ++ [u] ++ (Q ++ new) = (D ++ u :: Q) ++ new := by simp
      rw [e, List.mem_append] at hv
      rcases hv with hv | hv
      · exact hsub v hv
      · exact ((t7 v).1 hv).1
    · intro x hx hxS
      have hxu : u ≠ x := by rintro rfl; exact hxS (by simp)
      rw [t4 x hx (fun hc => hxS (by rw [← List.append_assoc]; exact List.mem_append_left _ hc)),
        hrem x, if_neg hxu]
      push_cast
      omega
    · intro v hv
      have e : D ++ [u] ++ (Q ++ new) = (D ++ u :: Q) ++ new := by simp
      rw [e, List.mem_append, hmem v hv, t7, hrem v]
      by_cases hvlv : v ∈ lv
      · have h0 : g.remIn (S ++ D) v = 0 :=
          remIn_mono (fun x hx => List.mem_append_left _ hx) (hp.lvSub v hvlv).2
        rw [hrem v] at h0
        constructor
        · rintro ((h1 | h1) | ⟨_, _, h3, h4⟩)
          · exact .inl h1
          · exact absurd hvlv h1.1
          · rw [h0] at h4
            exact absurd h3 (List.count_eq_zero.1 h4.symm)
        · rintro (h1 | h1)
          · exact .inl (.inl h1)
          · exact absurd hvlv h1.1
      · by_cases huv : u = v
        · subst huv
          rw [if_pos rfl]
          have : g.remIn (S ++ (D ++ [u])) u = 0 := by
            have := hrem u; rw [if_pos rfl] at this; omega
          simp [hvlv, this]
        · rw [if_neg huv]
          constructor
          · rintro ((h1 | h1) | ⟨_, _, h3, h4⟩)
            · exact absurd h1.1 hvlv
            · exact .inr ⟨hvlv, by omega⟩
            · exact .inr ⟨hvlv, by omega⟩
          · rintro (h1 | h1)
            · exact absurd h1.1 hvlv
            · by_cases hc : (g.col u).count v = 0
              · exact .inl (.inr ⟨hvlv, by omega⟩)
              · refine .inr ⟨hv, fun h => huv h.symm, ?_, by omega⟩
                by_contra hn
                exact hc (List.count_eq_zero.2 hn)
    · intro v hv w hw hwv
      rcases List.mem_append.1 hv with hv | hv
      · exact (htopo v hv w hw hwv).trans (List.sublist_append_left _ _)
      · rw [List.mem_singleton] at hv
        subst hv
        have h1 := (remIn_eq_zero.1 hur) w hwv
        rcases List.mem_append.1 h1 with h2 | h2
        · exact absurd h2 (hp.sub w hw).2
        · exact (List.singleton_sublist.2 h2).append (List.Sublist.refl [v])
    · rw [t2]; simpa using hvl
    · intro x
      rw [t2]; exact hvis' x
    · rw [t3]; simpa using hpl
    · intro q
      rw [t3]; exact hparts' q
    · rw [t2]; exact count_set_true (by omega) hvu
  · intro x hx hxS
    dsimp only
    rw [hdeg x hx hxS]; simp
  · intro x
    simp
  · rintro p a q t heq ⟨t1, t2, t3, t4, new, t5, t6, t7⟩
    rw [List.nil_append] at heq
    have ha : a ∈ g.col u := by rw [heq]; simp
    have han := hwf.range u hun a ha
    have hge : (g.col u).count a = p.count a + 1 + q.count a := by
      rw [heq, List.count_append, List.count_cons_self]; omega
    have hcnt : ∀ x, (p ++ [a]).count x = p.count x + if x = a then 1 else 0 := by
      intro x
      rw [List.count_append, List.count_singleton]
      by_cases hx : x = a
      · simp [hx]
      · have : ¬ a = x := fun h => hx h.symm
        simp [hx, this]
    have hdeg' : ∀ x, x < g.n → x ∉ S ++ D → (t.deg.set a (t.deg.getD a 0 - 1)).getD x 0
        = 1 + (g.remIn (S ++ D) x : Int) - ((p ++ [a]).count x : Nat) := by
      intro x hx hxS
      rw [getD_set, hcnt]
      by_cases hxa : x = a
      · subst hxa
        rw [if_pos ⟨rfl, by omega⟩, t4 x hx hxS, if_pos rfl]; push_cast; omega
      · rw [if_neg (by omega), t4 x hx hxS, if_neg hxa]; push_cast; omega
    have hva : t.visited.getD a true = (s0.visited.getD a true || decide (a ∈ D ++ [u])) := by
      rw [t2]; exact hvis' a
    -- whether `a` is pushed
    have hpush : (t.deg.getD a 0 - 1 = 1 ∧ t.visited.getD a true = false) ↔
        (a ∈ W ∧ a ≠ u ∧ g.remIn (S ++ D) a = p.count a + 1) := by
      by_cases hau : a = u
      · subst hau
        have h1 := t4 a han (by simp [huS, huD])
        rw [hur] at h1
        constructor
        · rintro ⟨h2, _⟩; omega
        · rintro ⟨_, h2, _⟩; exact absurd rfl h2
      · by_cases haW : a ∈ W
        · have haS := (hp.sub a haW).2
          have haD := hcol a ha hau
          have h1 := t4 a han (by simp [haS, haD])
          rw [hva, hp.vis a haW]
          simp only [haW, hau, haD, ne_eq, not_false_eq_true, true_and, List.mem_append,
            List.mem_singleton, or_self, decide_false, Bool.or_self, and_true]
          omega
        · have hv := hp.out u huW a ha haW
          rw [hva, hv]
          simp [haW]
    have hnotnew : g.remIn (S ++ D) a = p.count a + 1 → a ∉ new := by
      intro h1 hc
      have := ((t7 a).1 hc).2.2.2
      omega
    have hrema : a ∈ W → a ≠ u → (g.col u).count a ≤ g.remIn (S ++ D) a := by
      intro haW hau
      have h1 := remIn_append (v := a) hun (S := S ++ D) (by simp [huS, huD])
      rw [if_neg (fun h => hau h.symm)] at h1
      omega
    unfold bfsEdge
    rw [rd_getD 0 (by omega), ok_bind, wr_eq (by omega), ok_bind]
    have hnew0 : ¬ (a ∈ W ∧ a ≠ u ∧ g.remIn (S ++ D) a = p.count a + 1) →
        ∀ x, x ∈ new ↔ x ∈ W ∧ x ≠ u ∧ x ∈ p ++ [a] ∧ g.remIn (S ++ D) x = (p ++ [a]).count x := by
      intro hno x
      rw [t7, hcnt, List.mem_append, List.mem_singleton]
      by_cases hxa : x = a
      · subst hxa
        rw [if_pos rfl]
        constructor
        · rintro ⟨h1, h2, h3, h4⟩
          have := hrema h1 h2
          omega
        · rintro ⟨h1, h2, _, h4⟩
          exact absurd ⟨h1, h2, h4⟩ hno
      · simp [hxa]
    have hnew1 : (a ∈ W ∧ a ≠ u ∧ g.remIn (S ++ D) a = p.count a + 1) →
        ∀ x, x ∈ new ++ [a] ↔
          x ∈ W ∧ x ≠ u ∧ x ∈ p ++ [a] ∧ g.remIn (S ++ D) x = (p ++ [a]).count x := by
      rintro ⟨h1, h2, h3⟩ x
      rw [List.mem_append, List.mem_singleton, t7, hcnt, List.mem_append, List.mem_singleton]
      by_cases hxa : x = a
      · subst hxa
        rw [if_pos rfl]
        simp [h1, h2, h3]
      · simp [hxa]
    by_cases hd2 : t.deg.getD a 0 - 1 = 1
    · rw [if_pos hd2, rd_getD true (by rw [t2]; simp; omega), ok_bind, wp_ok]
      by_cases hv2 : t.visited.getD a true = true
      · rw [if_pos hv2]
        have hno : ¬ (a ∈ W ∧ a ≠ u ∧ g.remIn (S ++ D) a = p.count a + 1) := by
          rw [← hpush]; rintro ⟨_, h2⟩; rw [hv2] at h2; exact absurd h2 (by simp)
        exact ⟨by simpa using t1, t2, t3, hdeg', new, t5, t6, hnew0 hno⟩
      · rw [if_neg hv2]
        have hyes := hpush.1 ⟨hd2, by simpa using hv2⟩
        refine ⟨by simpa using t1, t2, t3, hdeg', new ++ [a], by dsimp only; rw [t5]; simp, ?_, hnew1 hyes⟩
        rw [List.nodup_append]
        refine ⟨t6, by simp, ?_⟩
        rintro x hx y hy rfl
        rw [List.mem_singleton] at hy
        exact hnotnew hyes.2.2 (hy ▸ hx)
    · rw [if_neg hd2, wp_ok]
      have hno : ¬ (a ∈ W ∧ a ≠ u ∧ g.remIn (S ++ D) a = p.count a + 1) := by
        rw [← hpush]; rintro ⟨h2, _⟩; exact hd2 h2
      exact ⟨by simpa using t1, t2, t3, hdeg', new, t5, t6, hnew0 hno⟩

/-- A leaf with any function that takes a node from the queue. -/
def leafWith (debug : Bool) (n : Nat) (lab : List Int) (pop : Bfs → Res Bfs) (u : Nat) (s : Bfs) :
    Res Bfs := do
  let l ← rd lab u
  if debug = true ∧ l < 0 then exn else
  whileF (n + 1) (fun s => ok (!s.queue.isEmpty)) pop { s with queue := s.queue ++ [u] }

/-- The search with any function that takes a node from the queue. -/
def bfsWith (debug : Bool) (n : Nat) (lab : List Int) (pop : Bfs → Res Bfs) (levelPtr levelSet : List Nat)
    (lev : Nat) (s : Bfs) : Res Bfs := do
  let a ← rd levelPtr lev
  let b ← rd levelPtr (lev + 1)
  forRange a b (fun ii s => do
    let u ← rd levelSet ii
    leafWith debug n lab pop u s) s

/-- The function works like `bfsPop`. -/
def PopOk (g : Csc) (lab : List Int) (pop : Bfs → Res Bfs) : Prop :=
  ∀ (S W lv : List Nat) (s0 : Bfs), BfsPre g S W lv lab s0 → ∀ (P D Q : List Nat) (u : Nat) (s : Bfs),
    BInv g S W lv lab s0 P D (u :: Q) s → wp (pop s) (fun s' => ∃ Q', BInv g S W lv lab s0 P (D ++ [u]) Q' s' ∧
      s'.visited.count false < s.visited.count false)

theorem popOk_bfsPop (hwf : g.WF) (hd1 : g.OneDiag) (lab : List Int) : PopOk g lab (bfsPop g.p g.i lab) :=
  fun _ _ _ _ hp _ _ _ _ _ h => bfsPop_wp hwf hd1 hp h

theorem leafWith_wp {S W lv : List Nat} {lab : List Int} {s0 : Bfs} {pop : Bfs → Res Bfs}
    (hpop : PopOk g lab pop)
    (hp : BfsPre g S W lv lab s0) (debug : Bool) {P D : List Nat} {u : Nat} {s : Bfs}
    (hu : u ∈ lv) (huP : u ∉ P) (h : BInv g S W lv lab s0 P D [] s) :
    wp (leafWith debug g.n lab pop u s) (fun s' => ∃ D', BInv g S W lv lab s0 (P ++ [u]) D' [] s') := by
  have huW := (hp.lvSub u hu).1
  have hun := (hp.sub u huW).1
  unfold leafWith
  rw [rd_getD 0 (by rw [hp.labLen]; exact hun), ok_bind, if_neg (by
    have := (hp.labOk u huW).1
    omega)]
  have huD : u ∉ D := by
    intro hc
    rcases (h.mem u huW).1 (by simpa using hc) with h1 | h1
    · exact huP h1.2
    · exact h1.1 hu
  have h1 : BInv g S W lv lab s0 (P ++ [u]) D [u] { s with queue := s.queue ++ [u] } := by
    refine ⟨by rw [h.queue]; rfl, ?_, ?_, h.degLen, h.deg, ?_, h.topo, h.visLen, h.vis, h.partsLen,
      h.parts⟩
    · rw [List.nodup_append]
      refine ⟨by simpa using h.nodup, by simp, ?_⟩
      rintro a ha b hb rfl
      rw [List.mem_singleton] at hb
      exact huD (hb ▸ ha)
    · intro v hv
      rcases List.mem_append.1 hv with hv | hv
      · exact h.sub v (by simpa using hv)
      · rw [List.mem_singleton] at hv; rw [hv]; exact huW
    · intro v hv
      have := h.mem v hv
      rw [List.append_nil] at this
      rw [List.mem_append, this, List.mem_singleton, List.mem_append, List.mem_singleton]
      by_cases hvu : v = u
      · subst hvu; simp [hu]
      · simp [hvu]
  refine whileF_wp (Q := fun s' => ∃ D', BInv g S W lv lab s0 (P ++ [u]) D' [] s') (fun s => ∃ D Q, BInv g S W lv lab s0 (P ++ [u]) D Q s)
    (fun s => s.visited.count false) ?_ _ _ ?_ ⟨D, [u], h1⟩
  · rintro t ⟨D', Q', ht⟩
    rw [wp_ok]
    cases Q' with
    | nil =>
      rw [ht.queue]
      exact ⟨D', ht⟩
    | cons v Q' =>
      rw [ht.queue]
      simp only [List.isEmpty_cons, Bool.not_false, if_true]
      have := hpop _ _ _ _ hp _ _ _ _ _ ht
      refine ⟨?_, wp_mono this ?_⟩
      · obtain ⟨s', _, _, _, h3⟩ := wp_iff.1 this
        omega
      · rintro s' ⟨Q'', h2, h3⟩
        exact ⟨⟨_, _, h2⟩, h3⟩
  · dsimp only
    have := List.count_le_length (a := false) (l := s.visited)
    rw [h.visLen] at this
    omega

/-- Result of the search: `ord` is the order in which the nodes of the window are listed. -/
structure BfsPost (g : Csc) (S W : List Nat) (lab : List Int) (s0 : Bfs) (ord : List Nat) (s : Bfs) :
    Prop where
  perm : ord.Perm W
  topo : ∀ u v, u ∈ W → v ∈ W → g.Dep u v → [u, v].Sublist ord
  queue : s.queue = []
  degLen : s.deg.length = g.n
  deg : ∀ x, x < g.n → x ∉ S → x ∉ W → s.deg.getD x 0 = 1 + (g.remIn (S ++ W) x : Int)
  visLen : s.visited.length = g.n
  vis : ∀ x, s.visited.getD x true = (s0.visited.getD x true || decide (x ∈ W))
  partsLen : s.parts.length = s0.parts.length
  parts : ∀ q, s.parts.getD q [] = s0.parts.getD q []
    ++ ord.filter (fun v => decide (lab.getD v 0 = (q : Int)))

theorem bfsWith_wp {S W : List Nat} {lab : List Int} {s0 : Bfs} {pop : Bfs → Res Bfs}
    (hpop : PopOk g lab pop)
    {levelPtr levelSet : List Nat} {lev : Nat} (hlev : lev + 1 < levelPtr.length)
    (hle : levelPtr.getD lev 0 ≤ levelPtr.getD (lev + 1) 0)
    (hset : levelPtr.getD (lev + 1) 0 ≤ levelSet.length)
    (hp : BfsPre g S W ((levelSet.drop (levelPtr.getD lev 0)).take
      (levelPtr.getD (lev + 1) 0 - levelPtr.getD lev 0)) lab s0)
    (rank : Nat → Nat) (hrank : ∀ u v, g.Dep u v → rank u < rank v) (debug : Bool) :
    wp (bfsWith debug g.n lab pop levelPtr levelSet lev s0)
      (fun s => ∃ ord, BfsPost g S W lab s0 ord s) := by
  unfold bfsWith
  rw [rd_getD 0 (by omega), ok_bind, rd_getD 0 hlev, ok_bind]
  unfold forRange
  rw [forRange_rd levelSet (leafWith debug g.n lab pop) _ _ _ (by omega)]
  generalize hlv : (levelSet.drop (levelPtr.getD lev 0)).take
      (levelPtr.getD (lev + 1) 0 - levelPtr.getD lev 0) = lv at hp ⊢
  have hstart : BInv g S W lv lab s0 [] [] [] s0 := by
    refine ⟨hp.queue, by simp, by simp, hp.degLen, by simpa using hp.deg, ?_, by simp, hp.visLen,
      by simp, rfl, by simp⟩
    intro v hv
    have := hp.inner v hv
    simp only [List.append_nil, List.not_mem_nil, and_false, false_or, false_iff, not_and]
    exact this
  have key := forEach_wp (fun P s => ∃ D, BInv g S W lv lab s0 P D [] s)
    (f := leafWith debug g.n lab pop) lv [] s0 ⟨[], hstart⟩ ?_
  · refine wp_mono key ?_
    rintro s ⟨D, h⟩
    rw [List.nil_append] at h
    have hall : ∀ k v, v ∈ W → rank v ≤ k → v ∈ D := by
      intro k
      induction k with
      | zero =>
        intro v hv hr
        have := (h.mem v hv).2 (by
          by_cases hvl : v ∈ lv
          · exact .inl ⟨hvl, hvl⟩
          · refine .inr ⟨hvl, ?_⟩
            rw [remIn_eq_zero]
            intro u hu
            have := hrank u v hu
            omega)
        simpa using this
      | succ k ih =>
        intro v hv hr
        have := (h.mem v hv).2 (by
          by_cases hvl : v ∈ lv
          · exact .inl ⟨hvl, hvl⟩
          · refine .inr ⟨hvl, ?_⟩
            rw [remIn_eq_zero]
            intro u hu
            rcases hp.preds u v hu hv with h1 | h1
            · exact List.mem_append_left _ h1
            · have := hrank u v hu
              exact List.mem_append_right _ (ih u h1 (by omega)))
        simpa using this
    have hiff : ∀ v, v ∈ D ↔ v ∈ W :=
      fun v => ⟨fun hv => h.sub v (by simpa using hv), fun hv => hall (rank v) v hv (Nat.le_refl _)⟩
    refine ⟨D, ?_, ?_, h.queue, h.degLen, ?_, h.visLen, ?_, h.partsLen, h.parts⟩
    · rw [List.perm_ext_iff_of_nodup (by simpa using h.nodup) hp.nodup]
      exact hiff
    · intro u v hu hv hd
      exact h.topo v ((hiff v).2 hv) u hu hd
    · intro x hx hxS hxW
      rw [h.deg x hx (by
        rw [List.mem_append, hiff]; exact fun hc => hc.elim hxS hxW)]
      rw [remIn_congr (S := S ++ D) (T := S ++ W) (by
        intro y; rw [List.mem_append, List.mem_append, hiff])]
    · intro x
      rw [h.vis]
      simp only [hiff]
  · rintro P u q s heq ⟨D, h⟩
    rw [List.nil_append] at heq
    refine leafWith_wp hpop hp debug (by rw [heq]; simp) ?_ h
    intro hc
    have := hp.lvNodup
    rw [heq, List.nodup_append] at this
    exact this.2.2 u hc u (by simp) rfl

theorem bfs_wp (hwf : g.WF) (hd1 : g.OneDiag) {S W : List Nat} {lab : List Int} {s0 : Bfs}
    {levelPtr levelSet : List Nat} {lev : Nat} (hlev : lev + 1 < levelPtr.length)
    (hle : levelPtr.getD lev 0 ≤ levelPtr.getD (lev + 1) 0)
    (hset : levelPtr.getD (lev + 1) 0 ≤ levelSet.length)
    (hp : BfsPre g S W ((levelSet.drop (levelPtr.getD lev 0)).take
      (levelPtr.getD (lev + 1) 0 - levelPtr.getD lev 0)) lab s0)
    (rank : Nat → Nat) (hrank : ∀ u v, g.Dep u v → rank u < rank v) (debug : Bool) :
    wp (bfs debug g.n g.p g.i lab levelPtr levelSet lev s0)
      (fun s => ∃ ord, BfsPost g S W lab s0 ord s) :=
  bfsWith_wp (popOk_bfsPop hwf hd1 lab) hlev hle hset hp rank hrank debug

end Verif.Lbc
