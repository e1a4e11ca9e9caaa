import Verif.Proof.ExecRow

/-! Level loops over race-free parts. -/

namespace Verif.Exec
open Res

variable {V : Type} {A : Arith V} {m : Mat V}

/-- All rows of the first `k` levels of a nested schedule. -/
def nestedRows (parts : Nat → List (List Nat)) (k : Nat) : List Nat :=
  (List.range k).flatMap (fun l => (parts l).flatten)

/-- A nested schedule lists every row once and orders the dependences. -/
structure NestedOk (n : Nat) (dep : Nat → Nat → Prop) (levels : Nat)
    (parts : Nat → List (List Nat)) : Prop where
  perm : (nestedRows parts levels).Perm (List.range n)
  dep : ∀ l, l < levels → ∀ P ∈ parts l, ∀ pre v post, P = pre ++ v :: post →
    ∀ u, dep u v → u ∈ nestedRows parts l ∨ u ∈ pre

theorem nestedRows_succ (parts : Nat → List (List Nat)) (k : Nat) :
    nestedRows parts (k + 1) = nestedRows parts k ++ (parts k).flatten := by
  simp [nestedRows, List.range_succ]

theorem nestedRows_mono {parts : Nat → List (List Nat)} {a b : Nat} (h : a ≤ b) :
    nestedRows parts a <+: nestedRows parts b := by
  induction b with
  | zero => have : a = 0 := by omega
            subst this; exact List.prefix_refl _
  | succ b ih =>
    rcases Nat.lt_or_ge a (b + 1) with h1 | h1
    · rw [nestedRows_succ]
      exact (ih (by omega)).trans (List.prefix_append _ _)
    · have : a = b + 1 := by omega
      subst this; exact List.prefix_refl _

/-- Code of one row. -/
noncomputable def rowI (h : RowsOk m) (i : Nat) : List (Instr V) :=
  if hi : i < m.n then rowInstrs m i (h.d hi) else []

/-- Code of a sequence of rows. -/
noncomputable def code (h : RowsOk m) (P : List Nat) : List (Instr V) := P.flatMap (rowI h)

theorem rowCode_rowI (h : RowsOk m) {i : Nat} (hi : i < m.n) :
    rowCode m.p m.i m.x i = ok (rowI h i) := by
  rw [rowCode_eq h.wf hi (h.hd hi), rowI, dif_pos hi]

theorem writes_rowI (h : RowsOk m) {i : Nat} (hi : i < m.n) (a : Nat) :
    a ∈ writes (rowI h i) ↔ a = i := by
  rw [rowI, dif_pos hi, rowInstrs, writes]
  simp only [List.flatMap_append, List.mem_append, List.mem_flatMap]
  constructor
  · rintro (⟨x, ⟨e, _, hx⟩, ha⟩ | ⟨x, hx, ha⟩)
    · simp at hx
      rcases hx with rfl | rfl | rfl <;> simp_all [Instr.writes]
    · simp at hx
      rcases hx with rfl | rfl <;> simp_all [Instr.writes]
  · rintro rfl
    exact .inr ⟨.div a (h.d hi), by simp, by simp [Instr.writes]⟩

theorem touched_rowI (h : RowsOk m) {i : Nat} (hi : i < m.n) {a : Nat}
    (ha : a ∈ touched (rowI h i)) : a = i ∨ m.RowDep a i := by
  rw [rowI, dif_pos hi, rowInstrs, touched, List.map_append, List.mem_append] at ha
  rcases ha with ha | ha
  · rw [List.mem_map] at ha
    obtain ⟨x, hx, rfl⟩ := ha
    rw [List.mem_flatMap] at hx
    obtain ⟨e, he, hx⟩ := hx
    simp at hx
    rcases hx with rfl | rfl | rfl
    · exact .inl rfl
    · exact .inr ⟨hi, e.2, he⟩
    · exact .inl rfl
  · simp [Instr.addr] at ha
    exact .inl ha

theorem writes_code (h : RowsOk m) {P : List Nat} (hP : ∀ i ∈ P, i < m.n) (a : Nat) :
    a ∈ writes (code h P) ↔ a ∈ P := by
  have : writes (code h P) = P.flatMap (fun i => writes (rowI h i)) := by
    simp [writes, code, List.flatMap_assoc]
  rw [this, List.mem_flatMap]
  constructor
  · rintro ⟨i, hi, ha⟩
    rw [writes_rowI h (hP i hi)] at ha
    subst ha; exact hi
  · intro ha
    exact ⟨a, ha, (writes_rowI h (hP a ha) a).2 rfl⟩

theorem touched_code (h : RowsOk m) {P : List Nat} (hP : ∀ i ∈ P, i < m.n) {a : Nat}
    (ha : a ∈ touched (code h P)) : ∃ i ∈ P, a = i ∨ m.RowDep a i := by
  have : touched (code h P) = P.flatMap (fun i => touched (rowI h i)) := by
    simp [touched, code, List.map_flatMap]
  rw [this, List.mem_flatMap] at ha
  obtain ⟨i, hi, ha⟩ := ha
  exact ⟨i, hi, touched_rowI h (hP i hi) ha⟩

/-- A part running alone. -/
theorem solo_part (h : RowsOk m) {b xs : List V} (hS : m.Solution A b xs) :
    ∀ (P D : List Nat) (x : List V) (r1 r2 : Option V), Prog m b xs D x → (D ++ P).Nodup →
      (∀ i ∈ P, i < m.n) →
      (∀ pre v post, P = pre ++ v :: post → ∀ u, m.RowDep u v → u ∈ D ∨ u ∈ pre) →
      ∃ s1 s2 x', solo A (code h P) ⟨r1, r2, x⟩ = ok ⟨s1, s2, x'⟩ ∧ Prog m b xs (D ++ P) x' := by
  intro P
  induction P with
  | nil =>
    intro D x r1 r2 hp _ _ _
    exact ⟨r1, r2, x, rfl, by simpa using hp⟩
  | cons i P ih =>
    intro D x r1 r2 hp hnd hlt hdep
    have hi : i < m.n := hlt i (List.mem_cons_self)
    have hiD : i ∉ D := by
      rw [List.nodup_append] at hnd
      intro hc
      exact hnd.2.2 i hc i (List.mem_cons_self) rfl
    obtain ⟨v, hv1, hv2⟩ := hp.row hS hi hiD (fun u hu => by
      rcases hdep [] i P rfl u hu with h | h
      · exact h
      · simp at h)
    obtain ⟨s1, s2, hs⟩ := solo_row (h.hd hi) (h.offNe i hi) hv1 r1 r2
    obtain ⟨t1, t2, x', ht1, ht2⟩ := ih (D ++ [i]) (x.set i v) s1 s2 hv2 (by simpa using hnd)
      (fun j hj => hlt j (List.mem_cons_of_mem _ hj)) (by
        rintro pre w post rfl u hu
        rcases hdep (i :: pre) w post rfl u hu with h | h
        · exact .inl (List.mem_append_left _ h)
        · rcases List.mem_cons.1 h with h | h
          · exact .inl (List.mem_append_right _ (by simp [h]))
          · exact .inr h)
    refine ⟨t1, t2, x', ?_, by simpa using ht2⟩
    have : code h (i :: P) = rowInstrs m i (h.d hi) ++ code h P := by
      simp [code, rowI, hi]
    rw [this, solo_append, hs]
    simpa using ht1

/-- The parts of one level do not race. -/
theorem raceFree_level (h : RowsOk m) {D : List Nat} {Ps : List (List Nat)}
    (hnd : (D ++ Ps.flatten).Nodup) (hlt : ∀ P ∈ Ps, ∀ i ∈ P, i < m.n)
    (hdep : ∀ P ∈ Ps, ∀ pre v post, P = pre ++ v :: post → ∀ u, m.RowDep u v → u ∈ D ∨ u ∈ pre) :
    RaceFree (Ps.map (code h)) := by
  intro s t cs ct hs ht hst a ha hat
  rw [List.getElem?_map, Option.map_eq_some_iff] at hs ht
  obtain ⟨P, hP, rfl⟩ := hs
  obtain ⟨Q, hQ, rfl⟩ := ht
  have hPm := List.mem_of_getElem? hP
  have hQm := List.mem_of_getElem? hQ
  rw [writes_code h (hlt P hPm)] at ha
  -- no common node
  have hdisj : ∀ a ∈ P, a ∉ Q := by
    rw [List.nodup_append] at hnd
    have hpw := (List.nodup_flatten.1 hnd.2.1).2
    rw [List.pairwise_iff_getElem] at hpw
    have hsl : s < Ps.length := by
      by_contra hc; rw [List.getElem?_eq_none (by omega)] at hP; cases hP
    have htl : t < Ps.length := by
      by_contra hc; rw [List.getElem?_eq_none (by omega)] at hQ; cases hQ
    rw [List.getElem?_eq_getElem hsl, Option.some.injEq] at hP
    rw [List.getElem?_eq_getElem htl, Option.some.injEq] at hQ
    intro a ha1 ha2
    rcases Nat.lt_or_gt_of_ne hst with h1 | h1
    · have := hpw s t hsl htl h1
      rw [hP, hQ] at this
      exact this ha1 ha2
    · have := hpw t s htl hsl h1
      rw [hP, hQ] at this
      exact this ha2 ha1
  obtain ⟨v, hv, hav⟩ := touched_code h (hlt Q hQm) hat
  rcases hav with rfl | hav
  · exact hdisj a ha hv
  · obtain ⟨pre, post, hsplit⟩ := List.append_of_mem hv
    rcases hdep Q hQm pre v post hsplit a hav with hc | hc
    · rw [List.nodup_append] at hnd
      exact hnd.2.2 a hc a (List.mem_flatten.2 ⟨P, hPm, ha⟩) rfl
    · exact hdisj a ha (by rw [hsplit]; exact List.mem_append_left _ hc)

theorem level_spec (h : RowsOk m) {b xs : List V} (hS : m.Solution A b xs)
    {D : List Nat} {Ps : List (List Nat)} {x : List V} (hp : Prog m b xs D x)
    (hnd : (D ++ Ps.flatten).Nodup) (hlt : ∀ P ∈ Ps, ∀ i ∈ P, i < m.n)
    (hdep : ∀ P ∈ Ps, ∀ pre v post, P = pre ++ v :: post → ∀ u, m.RowDep u v → u ∈ D ∨ u ∈ pre) :
    (∀ sch, wpl (parFor A (Ps.map (code h)) sch x) (Prog m b xs (D ++ Ps.flatten))) ∧
    ∃ sch y, parFor A (Ps.map (code h)) sch x = ok y := by
  have hrf := raceFree_level h hnd hlt hdep
  have hndP : ∀ P ∈ Ps, (D ++ P).Nodup := by
    intro P hP
    refine hnd.sublist ?_
    exact List.Sublist.append_left (List.sublist_flatten_of_mem hP) D
  have hpart : ∀ P ∈ Ps, ∃ s1 s2 x', solo A (code h P) ⟨none, none, x⟩ = ok ⟨s1, s2, x'⟩ ∧
      Prog m b xs (D ++ P) x' := fun P hP =>
    solo_part h hS P D x none none hp (hndP P hP) (hlt P hP) (hdep P hP)
  have hsolo : ∀ c ∈ Ps.map (code h), ∃ cpu, solo A c ⟨none, none, x⟩ = ok cpu := by
    intro c hc
    obtain ⟨P, hP, rfl⟩ := List.mem_map.1 hc
    obtain ⟨s1, s2, x', h1, _⟩ := hpart P hP
    exact ⟨_, h1⟩
  refine ⟨fun sch => ?_, parFor_complete hrf hsolo⟩
  refine wpl_mono (parFor_spec hrf hsolo sch) ?_
  rintro y ⟨hy1, hy2, hy3⟩
  refine ⟨by rw [hy1]; exact hp.1, fun a => ?_⟩
  by_cases ha : a ∈ Ps.flatten
  · obtain ⟨P, hP, haP⟩ := List.mem_flatten.1 ha
    obtain ⟨s1, s2, x', h1, h2⟩ := hpart P hP
    rw [hy3 _ (List.mem_map_of_mem hP) _ h1 a ((writes_code h (hlt P hP) a).2 haP)]
    dsimp only
    rw [h2.2 a, if_pos (List.mem_append_right _ haP), if_pos (List.mem_append_right _ ha)]
  · rw [hy2 a ?_, hp.2 a]
    · simp [ha]
    · intro c hc
      obtain ⟨P, hP, rfl⟩ := List.mem_map.1 hc
      rw [writes_code h (hlt P hP)]
      intro hc
      exact ha (List.mem_flatten.2 ⟨P, hP, hc⟩)

/-- The level loop. -/
theorem levelLoop_spec (h : RowsOk m) {b xs : List V} (hS : m.Solution A b xs)
    (hb : b.length = m.n) {levels : Nat} {ptr : List Nat}
    {thread : Nat → Res (List (Instr V))} {parts : Nat → List (List Nat)}
    (hn : NestedOk m.n m.RowDep levels parts)
    (hthr : ∀ l, l < levels → ∃ lo hi, rd ptr l = ok lo ∧ rd ptr (l + 1) = ok hi ∧
      parCodes lo hi thread = ok ((parts l).map (code h))) :
    (∀ sch, wpl (levelLoop A levels ptr thread sch b) (fun y => y = xs)) ∧
    ∃ sch, levelLoop A levels ptr thread sch b = ok xs := by
  have hnd : (nestedRows parts levels).Nodup := hn.perm.nodup_iff.2 List.nodup_range
  have hfull : ∀ y, Prog m b xs (nestedRows parts levels) y → y = xs := by
    intro y hy
    exact hy.full hS.1 (fun a ha => hn.perm.mem_iff.2 (List.mem_range.2 ha))
  have hlevel : ∀ l x, l < levels → Prog m b xs (nestedRows parts l) x →
      (∀ sch, wpl (parFor A ((parts l).map (code h)) sch x)
        (Prog m b xs (nestedRows parts (l + 1)))) ∧
      ∃ sch y, parFor A ((parts l).map (code h)) sch x = ok y := by
    intro l x hl hp
    have hpre := nestedRows_mono (parts := parts) (a := l + 1) (b := levels) hl
    rw [nestedRows_succ] at hpre ⊢
    refine level_spec h hS hp (hnd.sublist hpre.sublist) ?_ (hn.dep l hl)
    intro P hP i hi
    have : i ∈ nestedRows parts levels :=
      hpre.subset (List.mem_append_right _ (List.mem_flatten.2 ⟨P, hP, hi⟩))
    exact List.mem_range.1 (hn.perm.mem_iff.1 this)
  constructor
  · intro sch
    refine wpl_mono (forRange_wpl (fun l x => Prog m b xs (nestedRows parts l) x)
      (Nat.zero_le levels) ⟨hb, by simp [nestedRows]⟩ ?_) hfull
    intro l x _ hl hp
    obtain ⟨lo, hi, h1, h2, h3⟩ := hthr l hl
    rw [h1, h2]
    simp only [ok_bind]
    rw [h3]
    simp only [ok_bind]
    exact (hlevel l x hl hp).1 (sch l)
  · -- choose a finishing schedule for each level
    have key : ∀ k, k ≤ levels → ∃ (sch : Nat → List Nat) (y : List V),
        forN k 0 (fun l x => do
          let lo ← rd ptr l
          let hi ← rd ptr (l + 1)
          let codes ← parCodes lo hi thread
          parFor A codes (sch l) x) b = ok y ∧ Prog m b xs (nestedRows parts k) y := by
      intro k
      induction k with
      | zero => intro _; exact ⟨fun _ => [], b, rfl, hb, by simp [nestedRows]⟩
      | succ k ih =>
        intro hk
        obtain ⟨sch, y, h1, h2⟩ := ih (by omega)
        obtain ⟨hl1, sk, z, hl2⟩ := hlevel k y (by omega) h2
        have hz := hl1 sk
        rw [hl2, wpl_ok] at hz
        refine ⟨fun l => if l = k then sk else sch l, z, ?_, hz⟩
        -- split off the last iteration
        have hsplit : ∀ (f : Nat → List V → Res (List V)) (k lo : Nat) (s : List V),
            forN (k + 1) lo f s = (forN k lo f s >>= f (lo + k)) := by
          intro f k
          induction k with
          | zero =>
            intro lo s
            simp only [forN, ok_bind, Nat.add_zero]
            cases f lo s <;> rfl
          | succ k ih2 =>
            intro lo s
            rw [forN]
            conv_rhs => rw [forN]
            cases f lo s with
            | ok s' =>
              simp only [ok_bind]
              rw [ih2, show lo + 1 + k = lo + (k + 1) by omega]
            | _ => rfl
        rw [hsplit]
        have hcongr : ∀ (f f' : Nat → List V → Res (List V)) (k lo : Nat) (s : List V),
            (∀ l s, l < lo + k → f l s = f' l s) → forN k lo f s = forN k lo f' s := by
          intro f f' k
          induction k with
          | zero => intros; rfl
          | succ k ih2 =>
            intro lo s hff
            simp only [forN]
            rw [hff lo s (by omega)]
            congr 1
            funext s'
            exact ih2 (lo + 1) s' (fun l s hl => hff l s (by omega))
        rw [hcongr _ (fun l x => do
          let lo ← rd ptr l
          let hi ← rd ptr (l + 1)
          let codes ← parCodes lo hi thread
          parFor A codes (sch l) x) k 0 b (by
            intro l s hl
            dsimp only
            rw [if_neg (by omega)]), h1]
        obtain ⟨lo, hi, e1, e2, e3⟩ := hthr k (by omega)
        simp only [ok_bind, Nat.zero_add]
        rw [e1, e2]
        simp only [ok_bind]
        rw [e3]
        simp only [ok_bind, if_true]
        exact hl2
    obtain ⟨sch, y, h1, h2⟩ := key levels (le_refl _)
    refine ⟨sch, ?_⟩
    unfold levelLoop forRange
    rw [Nat.sub_zero, h1, hfull y h2]

/-! ### Codes of loops -/

theorem seqCode_eq {lo hi : Nat} {f : Nat → Res (List (Instr V))} {c : Nat → List (Instr V)}
    (hle : lo ≤ hi) (hf : ∀ k, lo ≤ k → k < hi → f k = ok (c k)) :
    seqCode lo hi f = ok ((List.range' lo (hi - lo)).flatMap c) := by
  unfold seqCode
  rw [forRange_append c hle]
  · simp
  · intro k acc h1 h2
    rw [hf k h1 h2]; rfl

theorem parCodes_eq {lo hi : Nat} {f : Nat → Res (List (Instr V))} {c : Nat → List (Instr V)}
    (hle : lo ≤ hi) (hf : ∀ k, lo ≤ k → k < hi → f k = ok (c k)) :
    parCodes lo hi f = ok ((List.range' lo (hi - lo)).map c) := by
  unfold parCodes
  rw [forRange_append (fun k => [c k]) hle]
  · simp [List.map_eq_flatMap]
  · intro k acc h1 h2
    rw [hf k h1 h2]; rfl

end Verif.Exec
