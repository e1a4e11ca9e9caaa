import Verif.Model.Csv
import Verif.ResLemmas
import Mathlib.Data.List.GetD
import Mathlib.Data.List.Nodup

/-!
# C116: the tables of measurements
-/

namespace Verif
open Res Csv

namespace Csv

theorem writeLine_eq {l : List Text} (h : l ≠ []) (file : Text) : writeLine l file = ok (file ++ line l) := by
  unfold writeLine
  rw [if_neg h]
  have hpos : 0 < l.length := List.length_pos_iff.2 h
  have h1 : wp (forRange 0 (l.length - 1) (fun k s => do
      let e ← rd l k
      ok (s ++ e ++ [','])) file)
      (fun s => s = file ++ (l.take (l.length - 1)).flatMap fun e => e ++ [',']) := by
    refine forRange_wp (fun k s => s = file ++ (l.take k).flatMap fun e => e ++ [',']) (Nat.zero_le _) (by simp) ?_
    intro k s _ hk hs
    subst hs
    rw [rd_eq (by omega), ok_bind, wp_ok, List.take_succ_eq_append_getElem (by omega), List.flatMap_append,
      List.flatMap_singleton]
    simp only [List.append_assoc]
  obtain ⟨s, e1, e2⟩ := wp_iff.1 h1
  rw [e1, ok_bind, rd_eq (by omega), ok_bind, e2]
  have : [','].intercalate l = (l.take (l.length - 1)).flatMap (fun e => e ++ [',']) ++ l[l.length - 1] := by
    clear e1 e2 h1
    induction l with
    | nil => exact absurd rfl h
    | cons a l ih =>
      cases l with
      | nil => simp [List.intercalate]
      | cons b l =>
        have := ih (by simp) (by simp)
        rw [List.intercalate_cons_cons, this]
        simp [List.take_succ_cons]
  unfold line
  rw [this]
  simp

theorem valueOf_snoc (p : List (Text × Text)) (v name c : Text) :
    valueOf (p ++ [(v, name)]) c = if name = c then some v else valueOf p c := by
  unfold valueOf
  rw [List.filter_append]
  by_cases h : name = c
  · rw [if_pos h]; simp [h]
  · rw [if_neg h]; simp [h]

theorem valueOf_nil (c : Text) : valueOf [] c = none := rfl

/-- `rowOf` in terms of the positions. -/
theorem rowOf_some {cols : List Text} {p : List (Text × Text)} {row : List Text} :
    rowOf cols p = some row ↔ row.length = cols.length ∧ ∀ k, k < cols.length →
      valueOf p (cols.getD k []) = some (row.getD k []) := by
  unfold rowOf
  induction cols generalizing row with
  | nil =>
    rw [List.mapM_nil]
    constructor
    · intro h; rw [← Option.some.inj h]; simp
    · rintro ⟨h, -⟩
      rw [List.length_eq_zero_iff.1 h]; rfl
  | cons c l ih =>
    rw [List.mapM_cons]
    constructor
    · intro h
      cases hc : valueOf p c with
      | none => rw [hc] at h; simp at h
      | some v =>
        rw [hc] at h
        cases hl : l.mapM (valueOf p) with
        | none => rw [hl] at h; simp at h
        | some r =>
          rw [hl] at h
          have e : v :: r = row := by simpa using h
          subst e
          obtain ⟨h1, h2⟩ := ih.1 hl
          refine ⟨by simp [h1], fun k hk => ?_⟩
          cases k with
          | zero => exact hc
          | succ k => exact h2 k (by simpa using hk)
    · rintro ⟨h1, h2⟩
      cases row with
      | nil => simp at h1
      | cons v r =>
        have hc : valueOf p c = some v := h2 0 (by simp)
        have hl : l.mapM (valueOf p) = some r :=
          ih.2 ⟨by simpa using h1, fun k hk => h2 (k + 1) (by simpa using hk)⟩
        rw [hc, hl]; rfl

theorem rowOf_none {cols : List Text} {p : List (Text × Text)} {k : Nat} (hk : k < cols.length)
    (h : valueOf p (cols.getD k []) = none) : rowOf cols p = none := by
  cases hr : rowOf cols p with
  | none => rfl
  | some row => rw [(rowOf_some.1 hr).2 k hk] at h; simp at h

/-- The state of the class after some calls. -/
structure Holds (cols : List Text) (base : Text) (t : List (List Text) × List (Text × Text)) (s : Mgr) : Prop where
  cols_eq : s.cols = cols
  slen : s.status.length = cols.length
  rlen : s.record.length = cols.length
  file : s.file = base ++ t.1.flatMap line
  idle : s.inProgress = false → t.2 = []
  busy : s.inProgress = true → ∀ k, k < cols.length →
    (s.status.getD k false = (valueOf t.2 (cols.getD k [])).isSome ∧
      ∀ v, valueOf t.2 (cols.getD k []) = some v → s.record.getD k [] = v)

theorem complete_eq {s : Mgr} (hs : s.status.length = s.cols.length) :
    complete s = ok (if (∀ k, k < s.cols.length → s.status.getD k false = true) then .next () else .brk ()) := by
  have h : wp (complete s) (Ctl.post (fun _ => ∀ k, k < s.cols.length → s.status.getD k false = true)
      (fun _ => ¬ ∀ k, k < s.cols.length → s.status.getD k false = true)) := by
    unfold complete
    refine forRangeB_wp (fun i _ => ∀ k, k < i → s.status.getD k false = true) _ (Nat.zero_le _)
      (fun k hk => absurd hk (Nat.not_lt_zero k)) ?_
    intro i _ _ hi hI
    rw [rd_getD false (by omega), ok_bind, wp_ok]
    cases hb : s.status.getD i false with
    | false =>
      rw [if_pos rfl]
      intro hall
      rw [hall i hi] at hb
      exact Bool.noConfusion hb
    | true =>
      rw [if_neg (by simp)]
      intro k hk
      rcases Nat.lt_succ_iff_lt_or_eq.1 hk with h | rfl
      · exact hI k h
      · exact hb
  obtain ⟨r, h1, h2⟩ := wp_iff.1 h
  rw [h1]
  cases r with
  | next u => rw [if_pos (show ∀ k, k < s.cols.length → s.status.getD k false = true from h2)]
  | brk u => rw [if_neg (show ¬ ∀ k, k < s.cols.length → s.status.getD k false = true from h2)]

theorem getD_idxOf {cols : List Text} {name : Text} (h : cols.idxOf name < cols.length) :
    cols.getD (cols.idxOf name) [] = name := by
  rw [List.getD_eq_getElem _ _ h]
  exact List.getElem_idxOf h

theorem addElement_holds {cols : List Text} (hnd : cols.Nodup) {base : Text}
    {t : List (List Text) × List (Text × Text)} {s : Mgr} (h : Holds cols base t s) (v name : Text) :
    wp (addElement s v name) (Holds cols base (tableStep cols t (.add v name))) := by
  obtain ⟨st, hst⟩ : ∃ st, st = (if s.inProgress then s.status else List.replicate s.status.length false) := ⟨_, rfl⟩
  have hsl : st.length = cols.length := by
    rw [hst]; split
    · exact h.slen
    · rw [List.length_replicate]; exact h.slen
  have hval : ∀ k, k < cols.length → st.getD k false = (valueOf t.2 (cols.getD k [])).isSome ∧
      ∀ v, valueOf t.2 (cols.getD k []) = some v → s.record.getD k [] = v := by
    intro k hk
    cases hp : s.inProgress with
    | true => rw [hst, hp, if_pos rfl]; exact h.busy hp k hk
    | false =>
      rw [hst, hp, if_neg (by simp), h.idle hp, valueOf_nil, getD_replicate _ _ _ _ (by rw [h.slen]; exact hk)]
      exact ⟨rfl, by simp⟩
  unfold addElement
  dsimp only
  rw [← hst, h.cols_eq]
  split
  · rename_i hk
    rw [wp_ok]
    refine ⟨rfl, hsl, h.rlen, h.file, by simp, fun _ k hk' => ?_⟩
    have hne : name ≠ cols.getD k [] := by
      rintro rfl
      have : cols.getD k [] ∈ cols := by rw [List.getD_eq_getElem _ _ hk']; exact List.getElem_mem hk'
      rw [← List.idxOf_lt_length_iff] at this
      omega
    unfold tableStep
    dsimp only
    rw [valueOf_snoc, if_neg hne]
    exact hval k hk'
  · rename_i hk
    have hlt : cols.idxOf name < cols.length := by
      have := List.idxOf_le_length (a := name) (l := cols)
      omega
    rw [wr_eq (by omega), ok_bind, wr_eq (by rw [h.rlen]; exact hlt), ok_bind, wp_ok]
    refine ⟨rfl, by simpa using hsl, by simpa using h.rlen, h.file, by simp, fun _ k hk' => ?_⟩
    unfold tableStep
    dsimp only
    rw [valueOf_snoc, getD_set, getD_set]
    by_cases he : k = cols.idxOf name
    · subst he
      rw [if_pos ⟨rfl, by omega⟩, if_pos (getD_idxOf hlt).symm, if_pos ⟨rfl, by rw [h.rlen]; exact hlt⟩]
      exact ⟨rfl, fun v h => Option.some.inj h⟩
    · have hn : name ≠ cols.getD k [] := by
        rintro rfl
        apply he
        rw [List.getD_eq_getElem _ _ hk', hnd.idxOf_getElem k hk']
      rw [if_neg (by intro hh; exact he hh.1.symm), if_neg hn, if_neg (by intro hh; exact he hh.1.symm)]
      exact hval k hk'

theorem addRecord_holds {cols : List Text} (hne : cols ≠ []) {base : Text}
    {t : List (List Text) × List (Text × Text)} {s : Mgr} (h : Holds cols base t s) :
    wp (addRecord s) (Holds cols base (tableStep cols t .record)) := by
  have hpos : 0 < cols.length := List.length_pos_iff.2 hne
  unfold addRecord
  split
  · rename_i hp
    rw [wp_ok]
    unfold tableStep
    dsimp only
    rw [h.idle hp, rowOf_none hpos (valueOf_nil _)]
    rw [← h.idle hp]
    exact h
  · rename_i hp
    have hp : s.inProgress = true := by simpa using hp
    rw [complete_eq (by rw [h.slen, h.cols_eq]), ok_bind]
    by_cases hall : ∀ k, k < s.cols.length → s.status.getD k false = true
    · rw [if_pos hall]
      dsimp only
      have hrow : rowOf cols t.2 = some s.record := by
        rw [rowOf_some]
        refine ⟨h.rlen, fun k hk => ?_⟩
        obtain ⟨h1, h2⟩ := h.busy hp k hk
        rw [hall k (by rw [h.cols_eq]; exact hk)] at h1
        obtain ⟨v, hv⟩ := Option.isSome_iff_exists.1 h1.symm
        rw [hv, h2 v hv]
      have hrne : s.record ≠ [] := by
        intro hh
        have := h.rlen
        rw [hh] at this
        simp at this
        omega
      rw [writeLine_eq hrne, ok_bind, wp_ok]
      unfold tableStep
      dsimp only
      rw [hrow]
      exact ⟨h.cols_eq, h.slen, h.rlen, by dsimp only; rw [h.file]; simp, fun _ => rfl, by simp⟩
    · rw [if_neg hall]
      dsimp only
      rw [wp_ok]
      obtain ⟨k, hk, hb⟩ : ∃ k, k < cols.length ∧ s.status.getD k false = false := by
        by_contra hh
        refine hall fun k hk => ?_
        by_contra hb
        exact hh ⟨k, by rwa [h.cols_eq] at hk, by simpa using hb⟩
      have hv := (h.busy hp k hk).1
      rw [hb] at hv
      unfold tableStep
      dsimp only
      rw [rowOf_none hk (by simpa using hv.symm)]
      exact h

theorem run_holds {cols : List Text} (hne : cols ≠ []) (hnd : cols.Nodup) {base : Text} (ops : List Op) :
    ∀ {t : List (List Text) × List (Text × Text)} {s : Mgr}, Holds cols base t s →
      wp (run ops s) (Holds cols base (ops.foldl (tableStep cols) t)) := by
  unfold run
  induction ops with
  | nil => intro t s h; rw [forEach, wp_ok]; exact h
  | cons o l ih =>
    intro t s h
    rw [forEach, wp_bind]
    have h1 : wp (step o s) (Holds cols base (tableStep cols t o)) := by
      cases o with
      | add v name => exact addElement_holds hnd h v name
      | record => exact addRecord_holds hne h
    exact wp_mono h1 fun s' h' => ih h'

end Csv

/-- **C116.** Whatever is done with a `CSVManager`, the file consists of what was there before, or of the line
with the names of the columns, and then of exactly the complete records: each has all columns in the order of
the header, each column the last value that was given since the last record was written. -/
theorem C116_table {cols : List Csv.Text} (hne : cols ≠ []) (hnd : cols.Nodup) (old : Option Csv.Text) (force : Bool)
    (ops : List Op) :
    ∃ s₀ s, create cols old force = ok s₀ ∧ run ops s₀ = ok s ∧
      s.file = (if force = true ∨ old = none then line cols else old.getD []) ++ (table cols ops).flatMap line := by
  have hc : ∃ s₀, create cols old force = ok s₀ ∧
      Holds cols (if force = true ∨ old = none then line cols else old.getD []) ([], []) s₀ := by
    have key : ∀ base, Holds cols base ([], []) ⟨cols, List.replicate cols.length [],
        List.replicate cols.length false, false, base⟩ := fun base =>
      ⟨rfl, List.length_replicate, List.length_replicate, by simp, fun _ => rfl, by simp⟩
    unfold create
    cases old with
    | none =>
      dsimp only
      rw [writeLine_eq hne, ok_bind, if_pos (.inr rfl), List.nil_append]
      exact ⟨_, rfl, key _⟩
    | some t =>
      cases force with
      | true =>
        dsimp only
        rw [writeLine_eq hne, ok_bind, if_pos (.inl rfl), List.nil_append]
        exact ⟨_, rfl, key _⟩
      | false =>
        dsimp only
        rw [if_neg (by simp)]
        exact ⟨_, rfl, key _⟩
  obtain ⟨s₀, h0, hH⟩ := hc
  obtain ⟨s, h1, h2⟩ := wp_iff.1 (run_holds hne hnd ops hH)
  exact ⟨s₀, s, h0, h1, h2.file⟩

namespace Csv

theorem table_width {cols : List Text} (ops : List Op) :
    ∀ t : List (List Text) × List (Text × Text), (∀ r ∈ t.1, r.length = cols.length) →
      ∀ r ∈ (ops.foldl (tableStep cols) t).1, r.length = cols.length := by
  induction ops with
  | nil => intro t h; exact h
  | cons o l ih =>
    intro t h
    refine ih _ ?_
    cases o with
    | add v name => exact h
    | record =>
      unfold tableStep
      dsimp only
      split
      · exact h
      · rename_i row hr
        intro r hr'
        rcases List.mem_append.1 hr' with h1 | h1
        · exact h r h1
        · rw [List.mem_singleton.1 h1]; exact (rowOf_some.1 hr).1

theorem valueOf_mem {p : List (Text × Text)} {c v : Text} (h : valueOf p c = some v) : (v, c) ∈ p := by
  unfold valueOf at h
  rw [Option.map_eq_some_iff] at h
  obtain ⟨e, he, rfl⟩ := h
  have := List.mem_of_getLast? he
  rw [List.mem_filter] at this
  obtain ⟨h1, h2⟩ := this
  have : e.2 = c := by simpa using h2
  rw [← this]
  exact h1

/-- Every field of the table is a value of one of the calls. -/
theorem table_values {cols : List Text} {P : Text → Prop} (ops : List Op)
    (hops : ∀ v name, .add v name ∈ ops → P v) :
    ∀ t : List (List Text) × List (Text × Text), (∀ r ∈ t.1, ∀ v ∈ r, P v) → (∀ e ∈ t.2, P e.1) →
      ∀ r ∈ (ops.foldl (tableStep cols) t).1, ∀ v ∈ r, P v := by
  induction ops with
  | nil => intro t h _; exact h
  | cons o l ih =>
    intro t h1 h2
    have hl : ∀ v name, .add v name ∈ l → P v := fun v name h => hops v name (List.mem_cons_of_mem _ h)
    cases o with
    | add v name =>
      refine ih hl _ h1 ?_
      intro e he
      rcases List.mem_append.1 he with h | h
      · exact h2 e h
      · rw [List.mem_singleton.1 h]; exact hops v name (List.mem_cons_self ..)
    | record =>
      cases hr : rowOf cols t.2 with
      | none =>
        refine ih hl _ ?_ ?_
        · unfold tableStep; dsimp only; rw [hr]; exact h1
        · unfold tableStep; dsimp only; rw [hr]; exact h2
      | some row =>
        refine ih hl _ ?_ ?_
        · unfold tableStep
          dsimp only
          rw [hr]
          intro r hr'
          rcases List.mem_append.1 hr' with h | h
          · exact h1 r h
          · rw [List.mem_singleton.1 h]
            intro v hv
            obtain ⟨k, hk, rfl⟩ := List.getElem_of_mem hv
            obtain ⟨e1, e2⟩ := rowOf_some.1 hr
            have := e2 k (by omega)
            rw [List.getD_eq_getElem (l := row) _ hk] at this
            exact h2 _ (valueOf_mem this)
        · unfold tableStep
          dsimp only
          rw [hr]
          simp

theorem not_mem_intercalate {l : List Text} {c : Char} (hc : c ≠ ',') (h : ∀ v ∈ l, c ∉ v) :
    c ∉ [','].intercalate l := by
  induction l with
  | nil => simp
  | cons a l ih =>
    cases l with
    | nil => simpa [List.intercalate] using h a (List.mem_cons_self ..)
    | cons b l =>
      rw [List.intercalate_cons_cons]
      intro hh
      rcases List.mem_append.1 hh with h1 | h1
      · rcases List.mem_append.1 h1 with h2 | h2
        · exact h a (List.mem_cons_self ..) h2
        · exact hc (List.mem_singleton.1 h2)
      · exact ih (fun v hv => h v (List.mem_cons_of_mem _ hv)) h1

/-- Lines of fields without commas and ends of lines are read back. -/
theorem parse_lines {rows : List (List Text)} (h : ∀ r ∈ rows, r ≠ [] ∧ ∀ v ∈ r, ',' ∉ v ∧ '\n' ∉ v) :
    parse (rows.flatMap line) = rows := by
  have e : rows.flatMap line = ['\n'].intercalate (rows.map (fun r => [','].intercalate r) ++ [[]]) := by
    clear h
    induction rows with
    | nil => simp [List.intercalate]
    | cons r l ih =>
      rw [List.flatMap_cons, ih, List.map_cons, List.cons_append]
      cases hl : l.map (fun r => [','].intercalate r) ++ [[]] with
      | nil => simp at hl
      | cons a k => rw [List.intercalate_cons_cons, line]
  unfold parse
  rw [e, List.splitOn_intercalate, List.dropLast_concat, List.map_map]
  · conv_rhs => rw [← List.map_id rows]
    refine List.map_congr_left fun r hr => ?_
    show ([','].intercalate r).splitOn ',' = r
    exact List.splitOn_intercalate ',' (fun v hv => ((h r hr).2 v hv).1) (h r hr).1
  · intro l hl
    rcases List.mem_append.1 hl with h1 | h1
    · obtain ⟨r, hr, rfl⟩ := List.mem_map.1 h1
      exact not_mem_intercalate (by decide) fun v hv => ((h r hr).2 v hv).2
    · rw [List.mem_singleton.1 h1]; simp
  · simp

end Csv

/-- **C116.** All rows have as many fields as there are columns. -/
theorem C116_width (cols : List Csv.Text) (ops : List Op) : ∀ r ∈ table cols ops, r.length = cols.length :=
  table_width ops ([], []) (by simp)

/-- **C116.** If no name and no value has a comma or the end of a line, whoever reads the file gets the header and the
rows back. -/
theorem C116_parse {cols : List Csv.Text} (hne : cols ≠ []) (hnd : cols.Nodup) (ops : List Op)
    (hc : ∀ c ∈ cols, ',' ∉ c ∧ '\n' ∉ c) (hv : ∀ v name, .add v name ∈ ops → ',' ∉ v ∧ '\n' ∉ v) :
    ∃ s₀ s, create cols none false = ok s₀ ∧ run ops s₀ = ok s ∧ parse s.file = cols :: table cols ops := by
  obtain ⟨s₀, s, h1, h2, h3⟩ := C116_table hne hnd none false ops
  refine ⟨s₀, s, h1, h2, ?_⟩
  rw [h3, if_pos (.inr rfl)]
  have := parse_lines (rows := cols :: table cols ops) (by
    intro r hr
    rcases List.mem_cons.1 hr with rfl | hr
    · exact ⟨hne, hc⟩
    · refine ⟨?_, table_values (P := fun v => ',' ∉ v ∧ '\n' ∉ v) ops hv ([], []) (by simp) (by simp) r hr⟩
      rintro rfl
      have := C116_width cols ops _ hr
      exact hne (List.length_eq_zero_iff.1 this.symm))
  rw [List.flatMap_cons] at this
  exact this

namespace Csv

/-- A column with a name that stands before it never has a value. -/
structure Blocked (cols : List Text) (k : Nat) (base : Text) (s : Mgr) : Prop where
  cols_eq : s.cols = cols
  slen : s.status.length = cols.length
  rlen : s.record.length = cols.length
  file : s.file = base
  never : s.status.getD k false = false

theorem step_blocked {cols : List Text} {k : Nat} (hk : k < cols.length) (hdup : ∀ name, cols.idxOf name ≠ k)
    {base : Text} {s : Mgr} (h : Blocked cols k base s) (o : Op) : wp (step o s) (Blocked cols k base) := by
  cases o with
  | add v name =>
    obtain ⟨st, hst⟩ : ∃ st, st = (if s.inProgress then s.status else List.replicate s.status.length false) :=
      ⟨_, rfl⟩
    have hsl : st.length = cols.length := by
      rw [hst]; split
      · exact h.slen
      · rw [List.length_replicate]; exact h.slen
    have hsk : st.getD k false = false := by
      rw [hst]; split
      · exact h.never
      · rw [getD_replicate _ _ _ _ (by rw [h.slen]; exact hk)]
    unfold step addElement
    dsimp only
    rw [← hst, h.cols_eq]
    split
    · rw [wp_ok]
      exact ⟨rfl, hsl, h.rlen, h.file, hsk⟩
    · have := List.idxOf_le_length (a := name) (l := cols)
      rw [wr_eq (by omega), ok_bind, wr_eq (by rw [h.rlen]; omega), ok_bind, wp_ok]
      refine ⟨rfl, by simpa using hsl, by simpa using h.rlen, h.file, ?_⟩
      dsimp only
      rw [getD_set, if_neg (by intro hh; exact hdup name hh.1)]
      exact hsk
  | record =>
    unfold step addRecord
    dsimp only
    split
    · rw [wp_ok]; exact h
    · rw [complete_eq (by rw [h.slen, h.cols_eq]), ok_bind, if_neg]
      · dsimp only
        rw [wp_ok]; exact h
      · intro hall
        have := hall k (by rw [h.cols_eq]; exact hk)
        rw [h.never] at this
        exact Bool.noConfusion this

end Csv

/-- **C116** (finding): if two columns have the same name, no record is ever written: the second of them never
gets a value. -/
theorem C116_duplicate_names {cols : List Csv.Text} (hdup : ¬ cols.Nodup) (ops : List Op) :
    ∃ s₀ s, create cols none false = ok s₀ ∧ run ops s₀ = ok s ∧ s.file = line cols := by
  obtain ⟨k, hk, hd⟩ : ∃ k, k < cols.length ∧ ∀ name, cols.idxOf name ≠ k := by
    by_contra hh
    apply hdup
    rw [List.nodup_iff_injective_get]
    intro a b hab
    have key : ∀ k : Fin cols.length, cols.idxOf (cols.get k) = k.1 := by
      intro k
      by_contra hne
      refine hh ⟨k.1, k.2, fun name hn => hne ?_⟩
      have h1 : cols.get k = name := by
        have : cols.idxOf name < cols.length := by rw [hn]; exact k.2
        rw [← getD_idxOf this, List.getD_eq_getElem _ _ this]
        simp only [List.get_eq_getElem, hn]
      rw [h1, hn]
    exact Fin.ext (by rw [← key a, ← key b, hab])
  have hne : cols ≠ [] := by rintro rfl; simp at hk
  have h0 : create cols none false = ok ⟨cols, List.replicate cols.length [], List.replicate cols.length false, false,
      line cols⟩ := by
    unfold create
    dsimp only
    rw [writeLine_eq hne, ok_bind, List.nil_append]
  have hB : Blocked cols k (line cols) ⟨cols, List.replicate cols.length [], List.replicate cols.length false, false,
      line cols⟩ :=
    ⟨rfl, List.length_replicate, List.length_replicate, rfl, by
      dsimp only; rw [getD_replicate _ _ _ _ hk]⟩
  have hrun : ∀ (l : List Op) (s : Mgr), Blocked cols k (line cols) s → wp (run l s) (Blocked cols k (line cols)) := by
    intro l
    unfold run
    induction l with
    | nil => intro s h; rw [forEach, wp_ok]; exact h
    | cons o l ih =>
      intro s h
      rw [forEach, wp_bind]
      exact wp_mono (step_blocked hk hd h o) fun s' h' => ih s' h'
  obtain ⟨s, h1, h2⟩ := wp_iff.1 (hrun ops _ hB)
  exact ⟨_, s, h0, h1, h2.file⟩

/-- **C116** (finding): without columns the constructor steps before the beginning of the vector. -/
theorem C116_no_columns : create [] none false = ub := rfl

/-- **C116** (finding): an incomplete record is not written, but its values appear in the next one. -/
theorem C116_stale_values :
    table ["a".toList, "b".toList] [.add "1".toList "a".toList, .record, .add "2".toList "b".toList, .record]
      = [["1".toList, "2".toList]] := by decide

/-- **C116** (finding): an existing file is continued although it has other columns. -/
theorem C116_other_columns :
    ∃ s₀ s, create ["b".toList, "a".toList] (some "a,b\n1,2\n".toList) false = ok s₀ ∧
      run [.add "1".toList "a".toList, .add "2".toList "b".toList, .record] s₀ = ok s ∧
      s.file = "a,b\n1,2\n2,1\n".toList := ⟨_, _, rfl, rfl, by decide⟩

/-- **C116** (finding): a comma in a value moves the fields behind it. -/
theorem C116_comma :
    parse (line ["x,y".toList, "1".toList]) = [["x".toList, "y".toList, "1".toList]] := by decide

/-! ### The measurements of example/SpTRSV_runtime.cpp -/

/-- One measurement. -/
structure Meas where
  mat : Csv.Text
  alg : Csv.Text
  kernel : Csv.Text
  core : Csv.Text
  sched : Csv.Text
  exec : Csv.Text
  nlevel : Csv.Text
  profit : Csv.Text

/-- Its row in the table. -/
def Meas.row (m : Meas) : List Csv.Text := [m.mat, m.alg, m.kernel, m.core, m.sched, m.exec, m.nlevel, m.profit]

/-- The calls of the driver for it. -/
def Meas.calls (m : Meas) : List Op := fullBlock m.mat m.alg m.kernel m.core m.sched m.exec m.nlevel m.profit

/-- The calls for a measurement of dagP. -/
def Meas.dagpCalls (m : Meas) : List Op := dagpBlock m.mat m.alg m.kernel m.core m.sched m.exec m.nlevel

namespace Csv

theorem full_step (m : Meas) (t : List (List Text) × List (Text × Text)) :
    m.calls.foldl (tableStep headers) t = (t.1 ++ [m.row], []) := by
  obtain ⟨r, p⟩ := t
  unfold Meas.calls fullBlock
  simp only [List.foldl_cons, List.foldl_nil]
  have hrow : rowOf headers (((((((( p ++ [(m.mat, "Matrix_Name".toList)]) ++ [(m.alg, "Algorithm".toList)])
      ++ [(m.kernel, "Kernel".toList)]) ++ [(m.core, "Core".toList)]) ++ [(m.sched, "Scheduling_Time".toList)])
      ++ [(m.exec, "Executor_Runtime".toList)]) ++ [(m.nlevel, "nlevel".toList)]) ++ [(m.profit, "Profitable".toList)])
      = some m.row := by
    rw [rowOf_some]
    refine ⟨rfl, ?_⟩
    intro k hk
    have : k = 0 ∨ k = 1 ∨ k = 2 ∨ k = 3 ∨ k = 4 ∨ k = 5 ∨ k = 6 ∨ k = 7 := by
      have : headers.length = 8 := rfl
      omega
    simp only [valueOf_snoc]
    rcases this with rfl | rfl | rfl | rfl | rfl | rfl | rfl | rfl <;> simp [headers, Meas.row]
  unfold tableStep
  dsimp only
  rw [hrow]

theorem dagp_step (m : Meas) (t : List (List Text) × List (Text × Text))
    (ht : valueOf t.2 "Profitable".toList = none) :
    (m.dagpCalls.foldl (tableStep headers) t).1 = t.1 ∧
      valueOf (m.dagpCalls.foldl (tableStep headers) t).2 "Profitable".toList = none := by
  obtain ⟨r, p⟩ := t
  unfold Meas.dagpCalls dagpBlock
  simp only [List.foldl_cons, List.foldl_nil]
  have hv : valueOf ((((((( p ++ [(m.mat, "Matrix_Name".toList)]) ++ [(m.alg, "Algorithm".toList)])
      ++ [(m.kernel, "Kernel".toList)]) ++ [(m.core, "Core".toList)]) ++ [(m.sched, "Scheduling_Time".toList)])
      ++ [(m.exec, "Executor_Runtime".toList)]) ++ [(m.nlevel, "nlevel".toList)]) "Profitable".toList = none := by
    simp only [valueOf_snoc]
    dsimp only at ht
    rw [ht]
    simp
  have hrow : rowOf headers ((((((( p ++ [(m.mat, "Matrix_Name".toList)]) ++ [(m.alg, "Algorithm".toList)])
      ++ [(m.kernel, "Kernel".toList)]) ++ [(m.core, "Core".toList)]) ++ [(m.sched, "Scheduling_Time".toList)])
      ++ [(m.exec, "Executor_Runtime".toList)]) ++ [(m.nlevel, "nlevel".toList)]) = none :=
    rowOf_none (k := 7) (by decide) hv
  unfold tableStep
  dsimp only
  rw [hrow]
  exact ⟨rfl, hv⟩

theorem fold_full (ms : List Meas) (t : List (List Text) × List (Text × Text)) (hne : ms ≠ []) :
    (ms.flatMap Meas.calls).foldl (tableStep headers) t = (t.1 ++ ms.map Meas.row, []) := by
  induction ms generalizing t with
  | nil => exact absurd rfl hne
  | cons m l ih =>
    rw [List.flatMap_cons, List.foldl_append, full_step]
    cases l with
    | nil => simp
    | cons m' l => rw [ih _ (by simp)]; simp

theorem fold_dagp (ms : List Meas) : ∀ t : List (List Text) × List (Text × Text),
    valueOf t.2 "Profitable".toList = none →
    ((ms.flatMap Meas.dagpCalls).foldl (tableStep headers) t).1 = t.1 := by
  induction ms with
  | nil => intro t _; rfl
  | cons m l ih =>
    intro t ht
    rw [List.flatMap_cons, List.foldl_append]
    obtain ⟨h1, h2⟩ := dagp_step m t ht
    rw [ih _ h2, h1]

end Csv

/-- **C116.** The driver writes one row for each measurement (apart from those of dagP), in the order in which they
are made. -/
theorem C116_driver_rows (ms : List Meas) : table headers (ms.flatMap Meas.calls) = ms.map Meas.row := by
  unfold table
  cases ms with
  | nil => rfl
  | cons m l => rw [fold_full _ _ (by simp)]; rfl

/-- **C116** (finding): the measurements of dagP are never written, since their column `Profitable` has no value;
what is measured before and after them is written as if they did not exist. -/
theorem C116_dagp_missing (before dagp after : List Meas) :
    table headers (before.flatMap Meas.calls ++ dagp.flatMap Meas.dagpCalls ++ after.flatMap Meas.calls)
      = before.map Meas.row ++ after.map Meas.row := by
  unfold table
  rw [List.foldl_append, List.foldl_append]
  have h1 : (before.flatMap Meas.calls).foldl (tableStep headers) ([], []) = (before.map Meas.row, []) := by
    cases before with
    | nil => rfl
    | cons m l => rw [fold_full _ _ (by simp)]; rfl
  rw [h1]
  have h2 := fold_dagp dagp (before.map Meas.row, []) (valueOf_nil _)
  cases after with
  | nil => rw [List.flatMap_nil, List.foldl_nil, h2]; simp
  | cons m l => rw [fold_full _ _ (by simp), h2]

/-- **C116.** The name of the matrix in the table: for `dir/name.mtx`, without a dot in `dir`, it is `name`. -/
theorem C116_mat_name {d b e : Csv.Text} (h1 : '/' ∉ d) (h2 : '.' ∉ d) (h3 : '.' ∉ b) :
    matName (d ++ '/' :: (b ++ '.' :: e)) = ok b := by
  have e1 : (d ++ '/' :: (b ++ '.' :: e)).idxOf '/' = d.length := by
    rw [List.idxOf_append_of_notMem h1]; simp
  have e2 : (d ++ '/' :: (b ++ '.' :: e)).idxOf '.' = d.length + 1 + b.length := by
    rw [List.idxOf_append_of_notMem h2, List.idxOf_cons_ne _ (by decide), List.idxOf_append_of_notMem h3]
    simp
    omega
  unfold matName
  dsimp only
  rw [e1, e2, if_neg (c := d.length = _) (by simp), if_neg (by simp only [List.length_append, List.length_cons]; omega), if_neg (by omega)]
  have : (d ++ '/' :: (b ++ '.' :: e)) = (d ++ ['/'] ++ b) ++ '.' :: e := by simp
  rw [this, List.take_left' (by simp; omega), List.drop_left' (by simp)]

/-- **C116** (finding): for a path with a dot before the first slash, such as `../name.mtx`, the range for the
name ends before it begins. -/
theorem C116_mat_name_dot {d b : Csv.Text} (h1 : '/' ∉ d) (h2 : '.' ∈ d) : matName (d ++ '/' :: b) = ub := by
  have e1 : (d ++ '/' :: b).idxOf '/' = d.length := by
    rw [List.idxOf_append_of_notMem h1]; simp
  have e2 : (d ++ '/' :: b).idxOf '.' < d.length := by
    rw [List.idxOf_append_of_mem h2]
    exact List.idxOf_lt_length_iff.2 h2
  unfold matName
  dsimp only
  rw [e1, if_neg (c := d.length = _) (by simp), if_neg (by simp only [List.length_append, List.length_cons]; omega), if_pos (by omega)]

/-! ### Examples -/

example : ∃ s₀ s, create ["a".toList, "b".toList] none false = ok s₀ ∧
    run [.add "2".toList "b".toList, .add "7".toList "c".toList, .record, .add "1".toList "a".toList,
      .add "3".toList "b".toList, .record] s₀ = ok s ∧ s.file = "a,b\n1,3\n".toList := ⟨_, _, rfl, rfl, by decide⟩

example : headers ≠ [] ∧ headers.Nodup ∧ ∀ c ∈ headers, ',' ∉ c ∧ '\n' ∉ c := by decide

example : matName "data/mat.mtx".toList = ok "mat".toList ∧ matName "../mat.mtx".toList = ub := by decide

end Verif
