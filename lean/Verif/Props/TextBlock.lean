import Verif.Model.TextBlock
import Verif.Proof.MtxScan
import Verif.Proof.MtxBad

/-!
# C135: text blocks that are written with `print_string` and read with `read_string`
-/

namespace Verif.TextBlock
open Res Mtx

/-- The text of a list of lines. -/
def linesText (ls : List Text) : Text := ls.flatMap (fun l => l ++ ['\n'])

/-- `l'` is `l` without white space at its start. -/
def Unindented (l l' : Text) : Prop := ∃ w, Blanks w ∧ l = w ++ l' ∧ ∀ c ∈ l'.head?, blank c = false

theorem ltrim_spec (l : Text) : Unindented l (ltrim l) := by
  refine ⟨l.takeWhile blank, fun c hc => (List.all_eq_true.1 List.all_takeWhile) c hc, List.takeWhile_append_dropWhile.symm, ?_⟩
  intro c hc
  have hc' : (l.dropWhile blank).head? = some c := hc
  have := List.head?_dropWhile_not blank l
  rw [hc'] at this
  simpa using this

theorem Unindented.eq {l a : Text} (ha : Unindented l a) : ltrim l = a := by
  obtain ⟨w, h1, rfl, h3⟩ := ha
  unfold ltrim
  rw [List.dropWhile_append_of_pos h1]
  cases a with
  | nil => rfl
  | cons c a => rw [List.dropWhile_cons_of_neg (by simp [h3 c (by simp)])]

theorem Unindented.add {w l a : Text} (hw : Blanks w) (h : Unindented l a) : Unindented (w ++ l) a := by
  obtain ⟨v, h1, rfl, h3⟩ := h
  refine ⟨w ++ v, fun c hc => ?_, by simp, h3⟩
  rcases List.mem_append.1 hc with hc | hc
  · exact hw c hc
  · exact h1 c hc

/-- Lines without the character that ends a line. -/
def Lines (ls : List Text) : Prop := ∀ l ∈ ls, '\n' ∉ l

/-- The body of the loop of `read_string`. -/
def readStep (indent : Text) (s : Str × Text × Text) : Res (Ctl (Str × Text × Text) (Text × Str)) :=
    if s.1.eof then ok (.brk (s.2.2, s.1))
    else
      let g := getline s.1 s.2.1
      if g.1.take indent.length ≠ indent then
        if g.1.head? = some '-' then ok (.next (g.2, g.1, s.2.2))
        else ok (.brk (s.2.2, seekg g.2 s.1.rest))
      else ok (.next (g.2, g.1, s.2.2 ++ (ltrim g.1 ++ ['\n'])))

def printStep (indent : Text) (s : Str × Text × Text) : Res (Ctl (Str × Text × Text) Text) :=
    let g := getline s.1 s.2.1
    if g.2.fail then ok (.brk s.2.2)
    else ok (.next (g.2, g.1, s.2.2 ++ indent ++ g.1 ++ ['\n']))

theorem print_lines {indent : Text} {tail out' : Text} {k : Nat}
    (h : ∀ old out, loopF k (printStep indent) (⟨tail, false, false⟩, old, out) = ok (out ++ out')) :
    ∀ (ls : List Text) (old out : Text), Lines ls →
      loopF (k + ls.length) (printStep indent) (⟨linesText ls ++ tail, false, false⟩, old, out)
        = ok (out ++ (linesText (ls.map (indent ++ ·)) ++ out')) := by
  intro ls
  induction ls with
  | nil => intro old out _; exact h old out
  | cons l ls ih =>
    intro old out hl
    have e : linesText (l :: ls) ++ tail = l ++ '\n' :: (linesText ls ++ tail) := by simp [linesText]
    rw [e, List.length_cons, ← Nat.add_assoc, loopF]
    unfold printStep
    dsimp only
    rw [getline_line (hl l (by simp))]
    dsimp only
    rw [if_neg (by simp), ok_bind]
    dsimp only
    have := ih l (out ++ indent ++ l ++ ['\n']) (fun l hl' => hl l (by simp [hl']))
    unfold printStep at this
    dsimp only at this
    rw [this]
    simp [linesText]

theorem getline_end {last : Text} (hlast : '\n' ∉ last) (old : Text) :
    getline ⟨last, false, false⟩ old = (last, ⟨[], true, decide (last = [])⟩) := by
  have hd : last.dropWhile (fun c => !(c == '\n')) = [] := by
    have := List.dropWhile_append_of_pos (p := fun c => !(c == '\n')) (l₁ := last) (l₂ := []) (by
      intro c hc
      simp only [Bool.not_eq_true', beq_eq_false_iff_ne, ne_eq]
      rintro rfl
      exact hlast hc)
    simpa using this
  unfold getline
  rw [if_pos (show Str.good _ = true from rfl)]
  dsimp only
  rw [hd]

/-- **C135, writing.**  Every line of the context is written with the indent in front, and the last one is ended,
whether or not the context ends it. -/
theorem C135_print {ls : List Text} (hl : Lines ls) {last : Text} (hlast : '\n' ∉ last) (indent : Text) {fuel : Nat}
    (hf : ls.length + 2 ≤ fuel) :
    printString fuel indent (linesText ls ++ last)
      = ok (linesText ((ls ++ if last = [] then [] else [last]).map (indent ++ ·))) := by
  obtain ⟨k, rfl⟩ : ∃ k, fuel = (k + 2) + ls.length := ⟨fuel - 2 - ls.length, by omega⟩
  show loopF (k + 2 + ls.length) (printStep indent) (⟨linesText ls ++ last, false, false⟩, [], []) = _
  rw [print_lines (out' := linesText ((if last = [] then [] else [last]).map (indent ++ ·))) ?_ ls [] [] hl]
  · simp [linesText]
  · intro old out
    have hg := fun old => getline_end hlast old
    rw [loopF]
    unfold printStep
    dsimp only
    rw [hg]
    dsimp only
    by_cases hz : last = []
    · rw [if_pos (by simpa using hz), if_pos hz, ok_bind]
      simp [linesText]
    · rw [if_neg (by simpa using hz), if_neg hz, ok_bind]
      dsimp only
      rw [loopF]
      dsimp only
      rw [getline_bad _ rfl]
      dsimp only
      rw [if_pos rfl, ok_bind]
      simp [linesText]

/-- A line of a block as `read_string` sees it: an indented line, of which `out` is kept, or a line that begins with `-`
and is skipped. -/
inductive BlockLine (indent : Text) : Text → List Text → Prop where
  | text {l l' : Text} : Unindented l l' → BlockLine indent (indent ++ l) [l']
  | skipped {l : Text} : ¬ indent <+: '-' :: l → BlockLine indent ('-' :: l) []

theorem read_lines {indent : Text} (hi : Blanks indent) {tail more : Text} {k : Nat} {s' : Str}
    (h : ∀ old ctx, loopF k (readStep indent) (⟨tail, false, false⟩, old, ctx) = ok (ctx ++ more, s')) :
    ∀ {ls : List Text} {outs : List (List Text)}, List.Forall₂ (BlockLine indent) ls outs → ∀ (old ctx : Text), Lines ls →
      loopF (k + ls.length) (readStep indent) (⟨linesText ls ++ tail, false, false⟩, old, ctx)
        = ok (ctx ++ (linesText outs.flatten ++ more), s') := by
  intro ls outs hb
  induction hb with
  | nil =>
    intro old ctx _
    simpa [linesText] using h old ctx
  | @cons l out ls outs hb _ ih =>
    intro old ctx hl
    have e : linesText (l :: ls) ++ tail = l ++ '\n' :: (linesText ls ++ tail) := by simp [linesText]
    have hr := fun ctx => ih l ctx (fun l hl' => hl l (by simp [hl']))
    unfold readStep at hr
    dsimp only at hr
    rw [e, List.length_cons, ← Nat.add_assoc, loopF]
    unfold readStep
    dsimp only
    rw [if_neg (by simp), getline_line (hl l (by simp))]
    dsimp only
    cases hb with
    | @text l l' hu =>
      rw [if_neg (by simp), ok_bind]
      dsimp only
      rw [hr, (hu.add hi).eq]
      simp [linesText]
    | @skipped l hn =>
      rw [if_pos (fun hc => hn (by rw [List.prefix_iff_eq_take]; exact hc.symm)), if_pos (show ('-' :: l).head? = some '-' from rfl), ok_bind]
      dsimp only
      rw [hr]
      simp [linesText]

/-- What follows a block: text whose first line is neither indented nor begins with `-`. -/
def EndsBlock (indent rest : Text) : Prop :=
  ¬ indent <+: rest.takeWhile (fun c => !(c == '\n')) ∧ rest.head? ≠ some '-'

theorem read_end {indent : Text} {rest : Text} (hr : EndsBlock indent rest) (k : Nat) (old ctx : Text) :
    loopF (k + 1) (readStep indent) (⟨rest, false, false⟩, old, ctx)
      = ok (ctx, if rest = [] then ⟨[], false, true⟩ else ⟨rest, false, false⟩) := by
  have hg : (getline ⟨rest, false, false⟩ old).1 = rest.takeWhile (fun c => !(c == '\n')) ∧
      (getline ⟨rest, false, false⟩ old).2.fail = decide (rest = []) ∧
      (rest = [] → (getline ⟨rest, false, false⟩ old).2.rest = []) := by
    unfold getline
    simp only [show Str.good ⟨rest, false, false⟩ = true from rfl, if_true]
    have hsplit := List.takeWhile_append_dropWhile (p := fun c => !(c == '\n')) (l := rest)
    split
    · rename_i hd
      rw [hd, List.append_nil] at hsplit
      exact ⟨hsplit.symm, rfl, fun _ => rfl⟩
    · rename_i c r hd
      have : rest ≠ [] := by
        rintro rfl
        simp at hd
      exact ⟨rfl, by simp [this], fun h => absurd h this⟩
  obtain ⟨g1, g2, g3⟩ := hg
  rw [loopF]
  unfold readStep
  dsimp only
  rw [if_neg (by simp), g1, if_pos (fun hc => hr.1 (by rw [List.prefix_iff_eq_take]; exact hc.symm)), if_neg ?_, ok_bind]
  · dsimp only
    unfold seekg
    rw [g2]
    by_cases hz : rest = []
    · rw [if_pos (by simpa using hz), if_pos hz, g3 hz]
      simp [hz]
    · rw [if_neg (by simpa using hz), if_neg hz]
  · intro hc
    refine hr.2 ?_
    cases rest with
    | nil => simp at hc
    | cons c r =>
      rw [List.takeWhile_cons] at hc
      split at hc
      · simpa using hc
      · simp at hc

/-- **C135, reading.**  From a block of indented lines and of lines that begin with `-`, followed by `rest`, the
indented lines are appended without white space at their start, the others are skipped, and the stream stands at the
first character of `rest`; at the end of the file it has failed. -/
theorem C135_read {indent : Text} (hi : Blanks indent) {ls : List Text} (hl : Lines ls) {outs : List (List Text)}
    (hb : List.Forall₂ (BlockLine indent) ls outs) {rest : Text} (hr : EndsBlock indent rest) (context : Text) {fuel : Nat}
    (hf : ls.length + 1 ≤ fuel) :
    readString fuel indent ⟨linesText ls ++ rest, false, false⟩ context
      = ok (context ++ linesText outs.flatten, if rest = [] then ⟨[], false, true⟩ else ⟨rest, false, false⟩) := by
  obtain ⟨k, rfl⟩ : ∃ k, fuel = (k + 1) + ls.length := ⟨fuel - 1 - ls.length, by omega⟩
  have := read_lines hi (more := []) (fun old ctx => by rw [List.append_nil]; exact read_end hr k old ctx) hb [] context hl
  rw [List.append_nil] at this
  exact this

/-- **C135, reading to the end.**  If the file ends with an indented line that is not ended, this line is kept, too, and
ended. -/
theorem C135_read_unfinished {indent : Text} (hi : Blanks indent) (hin : '\n' ∉ indent) (hne : indent ≠ [])
    {ls : List Text} (hl : Lines ls) {outs : List (List Text)} (hb : List.Forall₂ (BlockLine indent) ls outs)
    {last last' : Text} (hlast : '\n' ∉ last) (hu : Unindented last last') (context : Text) {fuel : Nat}
    (hf : ls.length + 2 ≤ fuel) :
    readString fuel indent ⟨linesText ls ++ (indent ++ last), false, false⟩ context
      = ok (context ++ linesText (outs.flatten ++ [last']), ⟨[], true, false⟩) := by
  obtain ⟨k, rfl⟩ : ∃ k, fuel = (k + 2) + ls.length := ⟨fuel - 2 - ls.length, by omega⟩
  have := read_lines hi (tail := indent ++ last) (more := last' ++ ['\n']) (k := k + 2) (s' := ⟨[], true, false⟩) ?_ hb []
    context hl
  · have e : linesText (outs.flatten ++ [last']) = linesText outs.flatten ++ (last' ++ ['\n']) := by simp [linesText]
    rw [e]
    exact this
  · intro old ctx
    rw [loopF]
    unfold readStep
    dsimp only
    rw [if_neg (by simp), getline_end (by simp [hin, hlast])]
    dsimp only
    have hz : indent ++ last ≠ [] := by simp [hne]
    rw [if_neg (by simp), ok_bind]
    dsimp only
    rw [loopF]
    dsimp only
    rw [if_pos rfl, ok_bind, (hu.add hi).eq, decide_eq_false hz]

theorem flatten_singles (f : Text → Text) (ls : List Text) : (ls.map (fun l => [f l])).flatten = ls.map f := by
  induction ls with
  | nil => rfl
  | cons l ls ih => simp [ih]

/-- **C135, round trip.**  What `print_string` writes, followed by text that ends the block, is read again line by line,
without white space at the start of the lines. -/
theorem C135_round_trip {indent : Text} (hi : Blanks indent) (hin : '\n' ∉ indent) {ls : List Text} (hl : Lines ls)
    {rest : Text} (hr : EndsBlock indent rest) (fuel : Nat) (hf : ls.length + 2 ≤ fuel) :
    ∃ out ls', printString fuel indent (linesText ls) = ok out ∧ List.Forall₂ Unindented ls ls' ∧
      readString fuel indent ⟨out ++ rest, false, false⟩ []
        = ok (linesText ls', if rest = [] then ⟨[], false, true⟩ else ⟨rest, false, false⟩) := by
  have h1 := C135_print hl (last := []) (by simp) indent hf
  rw [List.append_nil, if_pos rfl, List.append_nil] at h1
  refine ⟨_, ls.map ltrim, h1, ?_, ?_⟩
  · rw [List.forall₂_map_right_iff]
    exact List.forall₂_same.2 fun l _ => ltrim_spec l
  · have := C135_read hi (ls := ls.map (indent ++ ·)) (outs := ls.map (fun l => [ltrim l])) ?_ ?_ hr [] (fuel := fuel) ?_
    · rw [this]
      rw [flatten_singles, List.nil_append]
    · intro l hl'
      obtain ⟨l, h, rfl⟩ := List.mem_map.1 hl'
      simp [hin, hl l h]
    · rw [List.forall₂_map_left_iff, List.forall₂_map_right_iff]
      exact List.forall₂_same.2 fun l _ => .text (ltrim_spec l)
    · rw [List.length_map]; omega

/-- **C135, exact round trip.**  If no line starts with white space, the text that is read is the text that was written. -/
theorem C135_round_trip_exact {indent : Text} (hi : Blanks indent) (hin : '\n' ∉ indent) {ls : List Text} (hl : Lines ls)
    (hs : ∀ l ∈ ls, ∀ c ∈ l.head?, blank c = false) {rest : Text} (hr : EndsBlock indent rest) (fuel : Nat)
    (hf : ls.length + 2 ≤ fuel) :
    ∃ out s, printString fuel indent (linesText ls) = ok out ∧
      readString fuel indent ⟨out ++ rest, false, false⟩ [] = ok (linesText ls, s) ∧ s.rest = rest := by
  obtain ⟨out, ls', h1, h2, h3⟩ := C135_round_trip hi hin hl hr fuel hf
  have : ls' = ls := by
    clear h1 h3 hf hl
    induction h2 with
    | nil => rfl
    | @cons l l' ls ls' h _ ih =>
      rw [ih (fun l hl => hs l (by simp [hl])), ← h.eq]
      have : Unindented l l := ⟨[], by simp [Blanks], rfl, hs l (by simp)⟩
      rw [this.eq]
  rw [this] at h3
  refine ⟨out, _, h1, h3, ?_⟩
  split
  · rename_i h; exact h.symm
  · rfl

/-- **C135, the line after a block.**  A line that begins with `-`, such as a negative number, is lost if it follows a
block: the stream stands behind it. -/
theorem C135_minus_lost {indent : Text} (hi : Blanks indent) (hne : indent ≠ []) {ls : List Text} (hl : Lines ls)
    (hin : '\n' ∉ indent) {num rest : Text} (hnum : '\n' ∉ num) (hr : EndsBlock indent rest) (hrest : rest ≠ []) {fuel : Nat}
    (hf : ls.length + 2 ≤ fuel) :
    ∃ ls', List.Forall₂ Unindented ls ls' ∧
      readString fuel indent ⟨linesText (ls.map (indent ++ ·)) ++ ('-' :: num ++ '\n' :: rest), false, false⟩ []
        = ok (linesText ls', ⟨rest, false, false⟩) := by
  have hm : ¬ indent <+: '-' :: num := by
    cases indent with
    | nil => exact absurd rfl hne
    | cons c t =>
      intro h
      have h1 : c = '-' := (List.cons_prefix_cons.1 h).1
      have := hi c (by simp)
      rw [h1] at this
      exact absurd this (by decide)
  have := C135_read hi (ls := ls.map (indent ++ ·) ++ ['-' :: num]) (outs := ls.map (fun l => [ltrim l]) ++ [[]]) ?_ ?_ hr []
    (fuel := fuel) ?_
  · rw [if_neg hrest] at this
    refine ⟨ls.map ltrim, ?_, ?_⟩
    · rw [List.forall₂_map_right_iff]
      exact List.forall₂_same.2 fun l _ => ltrim_spec l
    · rw [List.flatten_append, flatten_singles] at this
      have e : linesText (ls.map (indent ++ ·)) ++ ('-' :: num ++ '\n' :: rest)
          = linesText (ls.map (indent ++ ·) ++ ['-' :: num]) ++ rest := by simp [linesText]
      rw [e, this]
      simp
  · intro l hl'
    rcases List.mem_append.1 hl' with hl' | hl'
    · obtain ⟨l, h, rfl⟩ := List.mem_map.1 hl'
      simp [hin, hl l h]
    · rw [List.mem_singleton] at hl'
      subst hl'
      simp [hnum]
  · refine List.rel_append ?_ (.cons (.skipped hm) .nil)
    rw [List.forall₂_map_left_iff, List.forall₂_map_right_iff]
    exact List.forall₂_same.2 fun l _ => .text (ltrim_spec l)
  · rw [List.length_append, List.length_map]; simp; omega

/-! ### Examples, with the indent of two spaces that is the default -/

def exIndent : Text := [' ', ' ']

example : printString 9 exIndent "a b\n\n c".toList = ok "  a b\n  \n   c\n".toList := by decide +kernel

/-- The white space before `c` is lost. -/
example : readString 9 exIndent ⟨"  a b\n  \n   c\n%%M\n".toList, false, false⟩ []
    = ok ("a b\n\nc\n".toList, ⟨"%%M\n".toList, false, false⟩) := by decide +kernel

example : readString 9 exIndent ⟨"  a\n-x\n   b".toList, false, false⟩ [] = ok ("a\nb\n".toList, ⟨[], true, false⟩) := by
  decide +kernel

/-- The negative number is lost. -/
example : readString 9 exIndent ⟨"  a\n-3.5\n7\n".toList, false, false⟩ [] = ok ("a\n".toList, ⟨"7\n".toList, false, false⟩) := by
  decide +kernel

/-- The hypotheses of `C135_round_trip_exact`. -/
example : ∃ out s, printString 9 exIndent (linesText [['a', ' ', 'b'], [], ['c']]) = ok out ∧
    readString 9 exIndent ⟨out ++ ['%', '\n'], false, false⟩ [] = ok (linesText [['a', ' ', 'b'], [], ['c']], s) ∧
    s.rest = ['%', '\n'] :=
  C135_round_trip_exact (by unfold Blanks exIndent; decide) (by decide) (by unfold Lines; decide)
    (by decide) (by unfold EndsBlock; decide) 9 (by decide)

end Verif.TextBlock
