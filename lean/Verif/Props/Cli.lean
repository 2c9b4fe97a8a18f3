import Verif.Model.Cli
/-! # C70: the command line -/
namespace Cordy.Cli
open Cordy.Syntax

/-! ## Specification -/

inductive Opt where
  | mode (m : Mode)
  | optimize
  | noLineNumbers
  | noStyle
  | link (m l : Word)
  | formatNo (ts : List Ty)
  deriving DecidableEq, Repr

def keyName : Ty → Word
  | .keyword => "keyword".toList
  | .constant => "constant".toList
  | .native => "native".toList
  | .type => "type".toList
  | .number => "number".toList
  | .string => "string".toList
  | .syntax => "syntax".toList
  | .comment => "comment".toList
  | .blank => []

/-- Words with commas between them. -/
def commas : List Word → Word
  | [] => []
  | [w] => w
  | w :: ws => w ++ ',' :: commas ws

/-- How options are written (the help text of `cordy --help`). -/
inductive Spells : Opt → List Word → Prop
  | help (w : Word) : w = "-h".toList ∨ w = "--help".toList → Spells (.mode .help) [w]
  | version (w : Word) : w = "-v".toList ∨ w = "--version".toList → Spells (.mode .version) [w]
  | disassembly (w : Word) : w = "-d".toList ∨ w = "--disassembly".toList → Spells (.mode .disassembly) [w]
  | format (w : Word) : w = "-f".toList ∨ w = "--format".toList → Spells (.mode .format) [w]
  | optimize (w : Word) : w = "-o".toList ∨ w = "--optimize".toList → Spells .optimize [w]
  | noLineNumbers : Spells .noLineNumbers ["--no-line-numbers".toList]
  | noStyle : Spells .noStyle ["--format-no-style".toList]
  | link (w m l : Word) : w = "-l".toList ∨ w = "--link".toList → '=' ∉ m → Spells (.link m l) [w, m ++ '=' :: l]
  | formatNo (ts : List Ty) : ts ≠ [] → Ty.blank ∉ ts → Spells (.formatNo ts) ["--format-no=".toList ++ commas (ts.map keyName)]

/-- A word that is no option. -/
def NoOption (w : Word) : Prop :=
  w ∉ ["-h".toList, "--help".toList, "-v".toList, "--version".toList, "-d".toList, "--disassembly".toList, "-f".toList, "--format".toList, "-o".toList,
    "--optimize".toList, "--no-line-numbers".toList, "--format-no-style".toList, "-l".toList, "--link".toList] ∧ ¬ "--format-no=".toList <+: w

/-- A command line: options, then nothing, or a file and the arguments of the program. -/
structure Reads (ws : List Word) (opts : List Opt) (rest : List Word) : Prop where
  words : ∃ ps, List.Forall₂ Spells opts ps ∧ ws = ps.flatten ++ rest
  file : ∀ w ∈ rest.head?, NoOption w

def modeOf : Opt → Option Mode
  | .mode m => some m
  | _ => none

def linkOf : Opt → Option Word
  | .link m _ => some m
  | _ => none

/-- At most one of help, version, disassembly, format; no module is linked twice. -/
def Consistent (opts : List Opt) : Prop := (opts.filterMap modeOf).length ≤ 1 ∧ (opts.filterMap linkOf).Nodup

/-- What options mean. -/
structure Means (opts : List Opt) (rest : List Word) (o : Options) : Prop where
  file : o.file = rest.head?
  args : o.args = rest.tail
  mode : o.mode = ((opts.filterMap modeOf).head?).getD .default
  optimize : o.optimize = true ↔ .optimize ∈ opts
  noLineNumbers : o.noLineNumbers = true ↔ .noLineNumbers ∈ opts
  noStyle : o.noStyle = true ↔ .noStyle ∈ opts
  links : ∀ m l, (m, l) ∈ o.links ↔ .link m l ∈ opts
  linksOnce : (o.links.map Prod.fst).Nodup
  formatNo : ∀ t, t ∈ o.formatNo ↔ ∃ ts, .formatNo ts ∈ opts ∧ t ∈ ts

/-! ## One option -/

def apply1 : Opt → Options → Option Options
  | .mode m, o => if o.mode = .default then some { o with mode := m } else none
  | .optimize, o => some { o with optimize := true }
  | .noLineNumbers, o => some { o with noLineNumbers := true }
  | .noStyle, o => some { o with noStyle := true }
  | .link m l, o => if m ∈ o.links.map Prod.fst then none else some { o with links := o.links ++ [(m, l)] }
  | .formatNo ts, o => some (ts.foldl (fun o t => { o with formatNo := if t ∈ o.formatNo then o.formatNo else o.formatNo ++ [t] }) o)

def applyAll : List Opt → Options → Option Options
  | [], o => some o
  | x :: xs, o => (apply1 x o).bind (applyAll xs)

def toOpt {A : Type} : Except Error A → Option A
  | .ok a => some a
  | .error _ => none

theorem toOpt_bind {A B : Type} (x : Except Error A) (f : A → Except Error B) : toOpt (x.bind f) = (toOpt x).bind fun a => toOpt (f a) := by cases x <;> rfl

theorem setMode_opt (o : Options) (m : Mode) : toOpt (setMode o m) = apply1 (.mode m) o := by
  unfold setMode apply1
  by_cases h : o.mode = .default <;> simp [h, toOpt]

theorem splitOnce_iff (w m l : Word) : splitOnce w = some (m, l) ↔ w = m ++ '=' :: l ∧ '=' ∉ m := by
  induction w generalizing m with
  | nil => simp [splitOnce]
  | cons c cs ih =>
    unfold splitOnce
    split
    · rename_i h; subst h
      constructor
      · intro e; simp at e; obtain ⟨rfl, rfl⟩ := e; simp
      · rintro ⟨h1, h2⟩
        cases m with
        | nil => simp at h1; simp [h1]
        | cons a m => simp at h1; obtain ⟨rfl, _⟩ := h1; simp at h2
    · rename_i h
      simp only [Option.map_eq_some_iff, Prod.exists]
      constructor
      · rintro ⟨a, b, h1, h2⟩
        cases h2
        obtain ⟨rfl, h2⟩ := (ih a).1 h1
        simp [h2, Ne.symm h]
      · rintro ⟨h1, h2⟩
        cases m with
        | nil => simp at h1; exact absurd h1.1 h
        | cons a m =>
          simp at h1 h2
          exact ⟨m, l, (ih m).2 ⟨h1.2, h2.2⟩, by rw [h1.1]⟩

theorem addLink_opt (m l : Word) (h : '=' ∉ m) (o : Options) : toOpt (addLink (m ++ '=' :: l) o) = apply1 (.link m l) o := by
  simp only [addLink, (splitOnce_iff _ m l).2 ⟨rfl, h⟩, apply1]
  split <;> rfl

theorem splitComma_ne (w : Word) : splitComma w ≠ [] := by
  cases w with
  | nil => simp [splitComma]
  | cons c cs => unfold splitComma; split <;> [simp; (split <;> simp)]

theorem commas_splitComma (w : Word) : commas (splitComma w) = w := by
  induction w with
  | nil => rfl
  | cons c cs ih =>
    unfold splitComma
    split
    · rename_i h; subst h
      cases hs : splitComma cs with
      | nil => exact absurd hs (splitComma_ne cs)
      | cons a as => rw [hs] at ih; simp [commas, ih]
    · cases hs : splitComma cs with
      | nil => exact absurd hs (splitComma_ne cs)
      | cons a as =>
        rw [hs] at ih
        cases as with
        | nil => simp only [commas] at ih ⊢; rw [ih]
        | cons b bs => simp only [commas] at ih ⊢; rw [← ih]; rfl

theorem splitComma_commas (ws : List Word) (h : ws ≠ []) (hc : ∀ w ∈ ws, ',' ∉ w) : splitComma (commas ws) = ws := by
  have one : ∀ (w : Word), ',' ∉ w → ∀ (x : Word) , splitComma (w ++ ',' :: x) = w :: splitComma x := by
    intro w hw x
    induction w with
    | nil => simp [splitComma]
    | cons c cs ih =>
      simp at hw
      rw [List.cons_append, splitComma, if_neg (Ne.symm hw.1), ih hw.2]
  have last : ∀ (w : Word), ',' ∉ w → splitComma w = [w] := by
    intro w hw
    induction w with
    | nil => rfl
    | cons c cs ih =>
      simp at hw
      rw [splitComma, if_neg (Ne.symm hw.1), ih hw.2]
  induction ws with
  | nil => exact absurd rfl h
  | cons w ws ih =>
    cases ws with
    | nil => exact last w (hc w (by simp))
    | cons v vs =>
      show splitComma (w ++ ',' :: commas (v :: vs)) = _
      rw [one w (hc w (by simp)), ih (by simp) (fun u hu => hc u (by simp [hu]))]

theorem keyOf_iff (w : Word) (t : Ty) : keyOf w = some t ↔ w = keyName t ∧ t ≠ .blank := by
  constructor
  · intro h
    unfold keyOf at h
    repeat' split at h
    all_goals first | (cases h; subst_vars; exact ⟨rfl, by decide⟩) | cases h
  · rintro ⟨rfl, h⟩
    cases t <;> first | decide | exact absurd rfl h

theorem addKeys_names (ts : List Ty) (h : Ty.blank ∉ ts) (o : Options) : toOpt (addKeys (ts.map keyName) o) = apply1 (.formatNo ts) o := by
  induction ts generalizing o with
  | nil => rfl
  | cons t ts ih =>
    simp only [List.mem_cons, not_or] at h
    rw [List.map_cons, addKeys, (keyOf_iff _ t).2 ⟨rfl, Ne.symm h.1⟩]
    simp only
    rw [ih h.2]
    rfl

theorem addKeys_ok (ks : List Word) (o o' : Options) (h : addKeys ks o = .ok o') : ∃ ts : List Ty, ks = ts.map keyName ∧ Ty.blank ∉ ts := by
  induction ks generalizing o with
  | nil => exact ⟨[], rfl, by simp⟩
  | cons k ks ih =>
    rw [addKeys] at h
    split at h
    · cases h
    · rename_i t ht
      obtain ⟨ts, h1, h2⟩ := ih _ h
      obtain ⟨h3, h4⟩ := (keyOf_iff k t).1 ht
      exact ⟨t :: ts, by rw [List.map_cons, ← h1, ← h3], by simp [h2, Ne.symm h4]⟩

theorem comma_not_key (t : Ty) : ',' ∉ keyName t := by cases t <;> decide

theorem parse_cons (w : Word) (ws : List Word) (o : Options) : parseLoop (w :: ws) o =
   (if w = "-h".toList ∨ w = "--help".toList then (setMode o .help).bind (parseLoop ws)
    else if w = "-v".toList ∨ w = "--version".toList then (setMode o .version).bind (parseLoop ws)
    else if w = "-d".toList ∨ w = "--disassembly".toList then (setMode o .disassembly).bind (parseLoop ws)
    else if w = "-f".toList ∨ w = "--format".toList then (setMode o .format).bind (parseLoop ws)
    else if w = "-o".toList ∨ w = "--optimize".toList then parseLoop ws { o with optimize := true }
    else if w = "--no-line-numbers".toList then parseLoop ws { o with noLineNumbers := true }
    else if w = "--format-no-style".toList then parseLoop ws { o with noStyle := true }
    else if w = "-l".toList ∨ w = "--link".toList then
      match ws with
      | [] => .error .noLinkArgument
      | t :: ws => (addLink t o).bind (parseLoop ws)
    else if formatNoPrefix.isPrefixOf w then (addKeys (splitComma (w.drop formatNoPrefix.length)) o).bind (parseLoop ws)
    else .ok { o with file := some w, args := ws }) := by
  rw [parseLoop.eq_def]
  rfl

/-- The words of an option are read as that option. -/
theorem parse_spells {x : Opt} {ws : List Word} (h : Spells x ws) (rest : List Word) (o : Options) :
    toOpt (parseLoop (ws ++ rest) o) = (apply1 x o).bind fun o => toOpt (parseLoop rest o) := by
  cases h with
  | help w hw =>
    rw [List.cons_append, parse_cons, if_pos hw, toOpt_bind, setMode_opt]; rfl
  | version w hw =>
    rw [List.cons_append, parse_cons, if_neg (by rcases hw with rfl | rfl <;> decide), if_pos hw, toOpt_bind, setMode_opt]; rfl
  | disassembly w hw =>
    rw [List.cons_append, parse_cons, if_neg (by rcases hw with rfl | rfl <;> decide), if_neg (by rcases hw with rfl | rfl <;> decide), if_pos hw, toOpt_bind, setMode_opt]; rfl
  | format w hw =>
    rw [List.cons_append, parse_cons, if_neg (by rcases hw with rfl | rfl <;> decide), if_neg (by rcases hw with rfl | rfl <;> decide),
      if_neg (by rcases hw with rfl | rfl <;> decide), if_pos hw, toOpt_bind, setMode_opt]; rfl
  | optimize w hw =>
    rw [List.cons_append, parse_cons, if_neg (by rcases hw with rfl | rfl <;> decide), if_neg (by rcases hw with rfl | rfl <;> decide),
      if_neg (by rcases hw with rfl | rfl <;> decide), if_neg (by rcases hw with rfl | rfl <;> decide), if_pos hw]; rfl
  | noLineNumbers =>
    rw [List.cons_append, parse_cons, if_neg (by decide), if_neg (by decide), if_neg (by decide), if_neg (by decide), if_neg (by decide), if_pos rfl]; rfl
  | noStyle =>
    rw [List.cons_append, parse_cons, if_neg (by decide), if_neg (by decide), if_neg (by decide), if_neg (by decide), if_neg (by decide), if_neg (by decide), if_pos rfl]; rfl
  | link w m l hw hm =>
    rw [List.cons_append, parse_cons, if_neg (by rcases hw with rfl | rfl <;> decide), if_neg (by rcases hw with rfl | rfl <;> decide),
      if_neg (by rcases hw with rfl | rfl <;> decide), if_neg (by rcases hw with rfl | rfl <;> decide), if_neg (by rcases hw with rfl | rfl <;> decide),
      if_neg (by rcases hw with rfl | rfl <;> decide), if_neg (by rcases hw with rfl | rfl <;> decide), if_pos hw]
    simp only [List.cons_append, List.nil_append]
    rw [toOpt_bind, addLink_opt m l hm]
  | formatNo ts hn hb =>
    have key : ∀ v : Word, v.take 12 ≠ "--format-no=".toList → "--format-no=".toList ++ commas (ts.map keyName) ≠ v := by
      rintro v hv rfl; exact hv (by simp)
    have k1 : ∀ v : Word, v.take 12 ≠ "--format-no=".toList → ∀ v' : Word, v'.take 12 ≠ "--format-no=".toList →
        ¬ ("--format-no=".toList ++ commas (ts.map keyName) = v ∨ "--format-no=".toList ++ commas (ts.map keyName) = v') := by
      rintro v hv v' hv' (h | h)
      · exact key v hv h
      · exact key v' hv' h
    rw [List.cons_append, parse_cons, if_neg (k1 _ (by decide) _ (by decide)), if_neg (k1 _ (by decide) _ (by decide)), if_neg (k1 _ (by decide) _ (by decide)),
      if_neg (k1 _ (by decide) _ (by decide)), if_neg (k1 _ (by decide) _ (by decide)), if_neg (key _ (by decide)), if_neg (key _ (by decide)),
      if_neg (k1 _ (by decide) _ (by decide)), if_pos (show List.isPrefixOf formatNoPrefix ("--format-no=".toList ++ commas (ts.map keyName)) = true from List.isPrefixOf_iff_prefix.2 (List.prefix_append _ _)), toOpt_bind]
    rw [show List.drop formatNoPrefix.length ("--format-no=".toList ++ commas (ts.map keyName)) = commas (ts.map keyName) from List.drop_left,
      splitComma_commas _ (by simpa using hn) (by intro w hw; obtain ⟨t, _, rfl⟩ := List.mem_map.1 hw; exact comma_not_key t), addKeys_names ts hb]
    rfl

theorem parse_file {w : Word} (h : NoOption w) (ws : List Word) (o : Options) : parseLoop (w :: ws) o = .ok { o with file := some w, args := ws } := by
  obtain ⟨h1, h2⟩ := h
  simp only [List.mem_cons, List.not_mem_nil, or_false, not_or] at h1
  obtain ⟨a1, a2, a3, a4, a5, a6, a7, a8, a9, a10, a11, a12, a13, a14⟩ := h1
  rw [parse_cons, if_neg (not_or.2 ⟨a1, a2⟩), if_neg (not_or.2 ⟨a3, a4⟩), if_neg (not_or.2 ⟨a5, a6⟩), if_neg (not_or.2 ⟨a7, a8⟩), if_neg (not_or.2 ⟨a9, a10⟩),
    if_neg a11, if_neg a12, if_neg (not_or.2 ⟨a13, a14⟩), if_neg (show ¬ List.isPrefixOf formatNoPrefix w = true from fun h => h2 (List.isPrefixOf_iff_prefix.1 h))]

/-- What is accepted is options and then the rest. -/
theorem parse_ok : ∀ (n : Nat) (ws : List Word), ws.length ≤ n → ∀ (o o' : Options), parseLoop ws o = .ok o' → ∃ opts rest, Reads ws opts rest
  | n, [], _, o, o', _ => ⟨[], [], ⟨[], .nil, rfl⟩, by simp⟩
  | 0, w :: ws, hn, _, _, _ => by simp at hn
  | n + 1, w :: ws, hn, o, o', h => by
    have hk : ws.length ≤ n := by simpa using hn
    have more : ∀ (x : Opt) (us vs : List Word), Spells x us → w :: ws = us ++ vs → (∃ opts rest, Reads vs opts rest) → ∃ opts rest, Reads (w :: ws) opts rest := by
      rintro x us vs hs he ⟨opts, rest, ⟨ps, hp, hv⟩, hf⟩
      exact ⟨x :: opts, rest, ⟨us :: ps, .cons hs hp, by rw [he, hv]; simp⟩, hf⟩
    have mode : ∀ m, (setMode o m).bind (parseLoop ws) = .ok o' → ∃ opts rest, Reads ws opts rest := by
      intro m h
      cases hs : setMode o m with
      | error e => rw [hs] at h; cases h
      | ok o1 => rw [hs] at h; exact parse_ok n ws hk o1 o' h
    rw [parse_cons] at h
    split at h
    · rename_i hw; exact more _ _ ws (.help w hw) rfl (mode _ h)
    split at h
    · rename_i hw; exact more _ _ ws (.version w hw) rfl (mode _ h)
    split at h
    · rename_i hw; exact more _ _ ws (.disassembly w hw) rfl (mode _ h)
    split at h
    · rename_i hw; exact more _ _ ws (.format w hw) rfl (mode _ h)
    split at h
    · rename_i hw; exact more _ _ ws (.optimize w hw) rfl (parse_ok n ws hk _ _ h)
    split at h
    · rename_i hw; exact more _ _ ws .noLineNumbers (by rw [hw]; rfl) (parse_ok n ws hk _ _ h)
    split at h
    · rename_i hw; exact more _ _ ws .noStyle (by rw [hw]; rfl) (parse_ok n ws hk _ _ h)
    split at h
    · rename_i hw
      cases ws with
      | nil => cases h
      | cons t ws =>
        simp only at h
        cases ha : addLink t o with
        | error e => rw [ha] at h; cases h
        | ok o1 =>
          rw [ha] at h
          unfold addLink at ha
          split at ha
          · cases ha
          · rename_i m l hs
            obtain ⟨rfl, h2⟩ := (splitOnce_iff t m l).1 hs
            exact more _ _ ws (.link w m l hw h2) rfl (parse_ok n ws (by simp at hk; omega) _ _ h)
    split at h
    · rename_i hw
      obtain ⟨x, rfl⟩ := List.isPrefixOf_iff_prefix.1 hw
      rw [List.drop_left] at h
      cases ha : addKeys (splitComma x) o with
      | error e => rw [ha] at h; cases h
      | ok o1 =>
        rw [ha] at h
        obtain ⟨ts, h1, h2⟩ := addKeys_ok _ _ _ ha
        have hx : x = commas (ts.map keyName) := by rw [← h1, commas_splitComma]
        exact more _ _ ws (.formatNo ts (by rintro rfl; exact splitComma_ne x (by simpa using h1)) h2) (by rw [hx]; rfl) (parse_ok n ws hk _ _ h)
    · rename_i a1 a2 a3 a4 a5 a6 a7 a8 a9
      simp only [not_or] at a1 a2 a3 a4 a5 a8
      refine ⟨[], w :: ws, ⟨[], .nil, rfl⟩, ?_⟩
      intro v hv
      simp at hv
      subst hv
      refine ⟨?_, ?_⟩
      · simp only [List.mem_cons, List.not_mem_nil, or_false, not_or]
        exact ⟨a1.1, a1.2, a2.1, a2.2, a3.1, a3.2, a4.1, a4.2, a5.1, a5.2, a6, a7, a8.1, a8.2⟩
      · intro hp; exact a9 (List.isPrefixOf_iff_prefix.2 hp)

def finish (rest : List Word) (o : Options) : Options := match rest with
  | [] => o
  | f :: as => { o with file := some f, args := as }

/-- Parsing is applying the options in order. -/
theorem parse_reads {ws : List Word} {opts : List Opt} {rest : List Word} (r : Reads ws opts rest) (o : Options) :
    toOpt (parseLoop ws o) = (applyAll opts o).map (finish rest) := by
  obtain ⟨⟨ps, hp, rfl⟩, hf⟩ := r
  induction hp generalizing o with
  | nil =>
    cases rest with
    | nil => rfl
    | cons f as => simp only [List.flatten_nil, List.nil_append, parse_file (hf f (by simp)) as o]; rfl
  | cons hs _ ih =>
    rw [List.flatten_cons, List.append_assoc, parse_spells hs]
    simp only [applyAll]
    cases apply1 _ o with
    | none => rfl
    | some o1 => exact ih o1

theorem applyAll_append (xs ys : List Opt) (o : Options) : applyAll (xs ++ ys) o = (applyAll xs o).bind (applyAll ys) := by
  induction xs generalizing o with
  | nil => rfl
  | cons x xs ih =>
    simp only [List.cons_append, applyAll]
    cases apply1 x o with
    | none => rfl
    | some o1 => exact ih o1

theorem foldl_keys (ts : List Ty) (o : Options) :
    let r := ts.foldl (fun o t => { o with formatNo := if t ∈ o.formatNo then o.formatNo else o.formatNo ++ [t] }) o
    r = { o with formatNo := r.formatNo } ∧ ∀ t, t ∈ r.formatNo ↔ t ∈ o.formatNo ∨ t ∈ ts := by
  induction ts generalizing o with
  | nil => exact ⟨rfl, by simp⟩
  | cons a ts ih =>
    obtain ⟨h1, h2⟩ := ih { o with formatNo := if a ∈ o.formatNo then o.formatNo else o.formatNo ++ [a] }
    refine ⟨h1, fun t => ?_⟩
    rw [List.foldl_cons, h2]
    by_cases ha : a ∈ o.formatNo
    · simp only [ha, if_true, List.mem_cons]
      constructor
      · rintro (h | h)
        · exact .inl h
        · exact .inr (.inr h)
      · rintro (h | rfl | h)
        · exact .inl h
        · exact .inl ha
        · exact .inr h
    · simp [ha, or_assoc]

theorem Means.linkNames {opts : List Opt} {rest : List Word} {o : Options} (h : Means opts rest o) (m : Word) : m ∈ o.links.map Prod.fst ↔ m ∈ opts.filterMap linkOf := by
  simp only [List.mem_map, List.mem_filterMap, Prod.exists, exists_and_right, exists_eq_right]
  constructor
  · rintro ⟨l, hl⟩; exact ⟨_, (h.links m l).1 hl, rfl⟩
  · rintro ⟨x, hx, hm⟩
    cases x with
    | link a l => simp [linkOf] at hm; subst hm; exact ⟨l, (h.links _ l).2 hx⟩
    | _ => simp [linkOf] at hm

/-- A step: one more option. -/
theorem apply1_means {xs : List Opt} {o : Options} (hdef : Opt.mode .default ∉ xs) (hc : Consistent xs) (hm : Means xs [] o) (x : Opt) :
    (apply1 x o = none ∧ ¬ Consistent (xs ++ [x])) ∨ ∃ o', apply1 x o = some o' ∧ Consistent (xs ++ [x]) ∧ Means (xs ++ [x]) [] o' := by
  have hn := hm.linkNames
  cases x with
  | mode m =>
    simp only [apply1]
    by_cases hd : xs.filterMap modeOf = []
    · have : o.mode = .default := by rw [hm.mode, hd]; rfl
      rw [if_pos this]
      refine .inr ⟨_, rfl, ⟨by simp [List.filterMap_append, List.filterMap_cons, hd, modeOf], by simpa [List.filterMap_append, List.filterMap_cons, linkOf] using hc.2⟩, ⟨hm.file, hm.args, by simp [List.filterMap_append, List.filterMap_cons, hd, modeOf], ?_, ?_, ?_, ?_, hm.linksOnce, ?_⟩⟩
      · simpa using hm.optimize
      · simpa using hm.noLineNumbers
      · simpa using hm.noStyle
      · simpa using hm.links
      · simpa using hm.formatNo
    · obtain ⟨a, as, ha⟩ := List.exists_cons_of_ne_nil hd
      have hne : a ≠ .default := by
        have : a ∈ xs.filterMap modeOf := by rw [ha]; simp
        obtain ⟨x, h1, h2⟩ := List.mem_filterMap.1 this
        cases x with
        | mode b => simp [modeOf] at h2; subst h2; rintro rfl; exact hdef h1
        | _ => simp [modeOf] at h2
      have : o.mode ≠ .default := by rw [hm.mode, ha]; exact hne
      rw [if_neg this]
      refine .inl ⟨rfl, fun h => ?_⟩
      have := h.1
      simp [List.filterMap_append, List.filterMap_cons, ha, modeOf] at this
  | optimize =>
    refine .inr ⟨_, rfl, ⟨by simpa [List.filterMap_append, List.filterMap_cons, modeOf] using hc.1, by simpa [List.filterMap_append, List.filterMap_cons, linkOf] using hc.2⟩, ⟨hm.file, hm.args, by simpa [List.filterMap_append, List.filterMap_cons, modeOf] using hm.mode, by simp, ?_, ?_, ?_, hm.linksOnce, ?_⟩⟩
    · simpa using hm.noLineNumbers
    · simpa using hm.noStyle
    · simpa using hm.links
    · simpa using hm.formatNo
  | noLineNumbers =>
    refine .inr ⟨_, rfl, ⟨by simpa [List.filterMap_append, List.filterMap_cons, modeOf] using hc.1, by simpa [List.filterMap_append, List.filterMap_cons, linkOf] using hc.2⟩, ⟨hm.file, hm.args, by simpa [List.filterMap_append, List.filterMap_cons, modeOf] using hm.mode, ?_, by simp, ?_, ?_, hm.linksOnce, ?_⟩⟩
    · simpa using hm.optimize
    · simpa using hm.noStyle
    · simpa using hm.links
    · simpa using hm.formatNo
  | noStyle =>
    refine .inr ⟨_, rfl, ⟨by simpa [List.filterMap_append, List.filterMap_cons, modeOf] using hc.1, by simpa [List.filterMap_append, List.filterMap_cons, linkOf] using hc.2⟩, ⟨hm.file, hm.args, by simpa [List.filterMap_append, List.filterMap_cons, modeOf] using hm.mode, ?_, ?_, by simp, ?_, hm.linksOnce, ?_⟩⟩
    · simpa using hm.optimize
    · simpa using hm.noLineNumbers
    · simpa using hm.links
    · simpa using hm.formatNo
  | link m l =>
    simp only [apply1]
    by_cases hl : m ∈ o.links.map Prod.fst
    · rw [if_pos hl]
      refine .inl ⟨rfl, fun h => ?_⟩
      have := h.2
      rw [List.filterMap_append, List.nodup_append] at this
      exact this.2.2 m ((hn m).1 hl) m (by simp [List.filterMap_cons, linkOf]) rfl
    · rw [if_neg hl]
      have hl' : m ∉ xs.filterMap linkOf := fun h => hl ((hn m).2 h)
      refine .inr ⟨_, rfl, ⟨by simpa [List.filterMap_append, List.filterMap_cons, modeOf] using hc.1, ?_⟩, ⟨hm.file, hm.args, by simpa [List.filterMap_append, List.filterMap_cons, modeOf] using hm.mode, ?_, ?_, ?_, ?_, ?_, ?_⟩⟩
      · rw [List.filterMap_append, List.nodup_append]
        refine ⟨hc.2, by simp [List.filterMap_cons, linkOf], ?_⟩
        intro a ha b hb
        simp [linkOf] at hb; subst hb; rintro rfl; exact hl' ha
      · simpa using hm.optimize
      · simpa using hm.noLineNumbers
      · simpa using hm.noStyle
      · intro a b; simp [hm.links]
      · simp only [List.map_append, List.nodup_append]
        refine ⟨hm.linksOnce, by simp, ?_⟩
        intro a ha b hb
        simp at hb; subst hb; rintro rfl; exact hl ha
      · simpa using hm.formatNo
  | formatNo ts =>
    obtain ⟨h1, h2⟩ := foldl_keys ts o
    simp only [apply1]
    generalize ts.foldl _ o = r at h1 h2
    refine .inr ⟨r, rfl, ⟨by simpa [List.filterMap_append, List.filterMap_cons, modeOf] using hc.1, by simpa [List.filterMap_append, List.filterMap_cons, linkOf] using hc.2⟩, ?_⟩
    rw [h1]
    refine ⟨hm.file, hm.args, by simpa [List.filterMap_append, List.filterMap_cons, modeOf] using hm.mode, ?_, ?_, ?_, ?_, hm.linksOnce, ?_⟩
    · simpa using hm.optimize
    · simpa using hm.noLineNumbers
    · simpa using hm.noStyle
    · simpa using hm.links
    · intro t
      rw [h2, hm.formatNo]
      constructor
      · rintro (⟨us, a, b⟩ | h)
        · exact ⟨us, by simp [a], b⟩
        · exact ⟨ts, by simp, h⟩
      · rintro ⟨us, a, b⟩
        simp at a
        rcases a with a | rfl
        · exact .inl ⟨us, a, b⟩
        · exact .inr b

theorem snoc_induction {A : Type} {P : List A → Prop} (nil : P []) (snoc : ∀ xs x, P xs → P (xs ++ [x])) (xs : List A) : P xs := by
  rw [← List.reverse_reverse xs]
  induction xs.reverse with
  | nil => exact nil
  | cons x xs ih => rw [List.reverse_cons]; exact snoc _ _ ih

theorem applyAll_means (opts : List Opt) (hd : Opt.mode .default ∉ opts) :
    (applyAll opts {} = none ∧ ¬ Consistent opts) ∨ ∃ o, applyAll opts {} = some o ∧ Consistent opts ∧ Means opts [] o := by
  induction opts using snoc_induction with
  | nil => exact .inr ⟨_, rfl, by simp [Consistent], ⟨rfl, rfl, rfl, by simp, by simp, by simp, by simp, by simp, by simp⟩⟩
  | snoc xs x ih =>
    have hd' : Opt.mode .default ∉ xs := fun h => hd (by simp [h])
    rw [applyAll_append]
    rcases ih hd' with ⟨h1, h2⟩ | ⟨o, h1, h2, h3⟩
    · rw [h1]
      refine .inl ⟨rfl, fun h => h2 ?_⟩
      obtain ⟨a, b⟩ := h
      rw [List.filterMap_append] at a b
      exact ⟨by simp at a; omega, (List.nodup_append.1 b).1⟩
    · rw [h1]
      have : (some o).bind (applyAll [x]) = apply1 x o := by simp [applyAll]
      rw [this]
      exact apply1_means hd' h2 h3 x

theorem Reads.noDefault {ws opts rest} (r : Reads ws opts rest) : Opt.mode .default ∉ opts := by
  obtain ⟨⟨ps, hp, hw⟩, _⟩ := r
  clear hw
  intro h
  induction hp with
  | nil => simp at h
  | cons hs _ ih =>
    rcases List.mem_cons.1 h with h | h
    · subst h; cases hs
    · exact ih h

theorem Means.finish {opts : List Opt} {o : Options} (h : Means opts [] o) (rest : List Word) : Means opts rest (finish rest o) := by
  cases rest with
  | nil => exact h
  | cons f as => exact ⟨rfl, rfl, h.mode, h.optimize, h.noLineNumbers, h.noStyle, h.links, h.linksOnce, h.formatNo⟩

/-! ## The theorems -/

/-- **C70** a command line that is options, at most one mode among them and no module linked twice, followed by nothing or by a file and the arguments of the program, is
accepted, and means what the options mean; the arguments of the program are passed as they are, whatever they look like. -/
theorem C70_accepted (ws : List Word) (opts : List Opt) (rest : List Word) (r : Reads ws opts rest) (c : Consistent opts) :
    ∃ o, parseArgs ws = .ok o ∧ Means opts rest o := by
  rcases applyAll_means opts r.noDefault with ⟨_, h⟩ | ⟨o, h1, _, h3⟩
  · exact absurd c h
  · refine ⟨finish rest o, ?_, h3.finish rest⟩
    have := parse_reads r {}
    rw [h1] at this
    unfold parseArgs
    cases hp : parseLoop ws {} with
    | error e => rw [hp] at this; cases this
    | ok o' => rw [hp] at this; cases this; rfl

/-- **C70** every other command line is refused. -/
theorem C70_refused (ws : List Word) (h : ∀ opts rest, Reads ws opts rest → ¬ Consistent opts) : ∃ e, parseArgs ws = .error e := by
  cases hp : parseArgs ws with
  | error e => exact ⟨e, rfl⟩
  | ok o =>
    obtain ⟨opts, rest, r⟩ := parse_ok ws.length ws (Nat.le_refl _) _ _ hp
    rcases applyAll_means opts r.noDefault with ⟨h1, _⟩ | ⟨_, _, h2, _⟩
    · have := parse_reads r {}
      rw [h1] at this
      rw [parseArgs] at hp
      rw [hp] at this; cases this
    · exact absurd h2 (h opts rest r)

/-- **C70** a command line can be read in one way: the same words never are options and something else. -/
theorem C70_unambiguous (ws : List Word) (o1 o2 : List Opt) (r1 r2 : List Word) (h1 : Reads ws o1 r1) (h2 : Reads ws o2 r2) (c1 : Consistent o1) :
    Consistent o2 ∧ r1 = r2 ∧ ∀ o, Means o1 r1 o → ∃ o', Means o2 r2 o' ∧ o'.mode = o.mode ∧ o'.optimize = o.optimize ∧ o'.noLineNumbers = o.noLineNumbers ∧
      o'.noStyle = o.noStyle ∧ (∀ p, p ∈ o'.links ↔ p ∈ o.links) ∧ ∀ t, t ∈ o'.formatNo ↔ t ∈ o.formatNo := by
  obtain ⟨o, p1, m1⟩ := C70_accepted ws o1 r1 h1 c1
  have c2 : Consistent o2 := by
    rcases applyAll_means o2 h2.noDefault with ⟨a, _⟩ | ⟨_, _, a, _⟩
    · have := parse_reads h2 {}
      rw [a] at this
      rw [parseArgs] at p1
      rw [p1] at this; cases this
    · exact a
  obtain ⟨o', p2, m2⟩ := C70_accepted ws o2 r2 h2 c2
  rw [p1] at p2
  cases p2
  have hr : r1 = r2 := by
    have a := m1.file.symm.trans m2.file
    have b := m1.args.symm.trans m2.args
    cases r1 <;> cases r2 <;> simp_all
  refine ⟨c2, hr, fun q mq => ⟨o, m2, ?_, ?_, ?_, ?_, ?_, ?_⟩⟩
  · rw [m1.mode, mq.mode]
  · rw [Bool.eq_iff_iff, m1.optimize, mq.optimize]
  · rw [Bool.eq_iff_iff, m1.noLineNumbers, mq.noLineNumbers]
  · rw [Bool.eq_iff_iff, m1.noStyle, mq.noStyle]
  · rintro ⟨m, l⟩; rw [m1.links, mq.links]
  · intro t; rw [m1.formatNo, mq.formatNo]

/-- **C70** what is done: help and version win; without a file there is a REPL; with one it is formatted, listed or run, with the arguments that follow it. -/
theorem C70_action (ws : List Word) (opts : List Opt) (rest : List Word) (r : Reads ws opts rest) (c : Consistent opts) :
    ∃ o, Means opts rest o ∧
    (.mode .help ∈ opts → action ws = .help) ∧
    (.mode .version ∈ opts → action ws = .version) ∧
    (.mode .help ∉ opts → .mode .version ∉ opts → rest = [] → action ws = .repl o.links) ∧
    ∀ f as, rest = f :: as →
      (.mode .format ∈ opts → action ws = .page f (!o.noStyle) o.formatNo) ∧
      (.mode .disassembly ∈ opts → action ws = .listing f o.optimize (!o.noLineNumbers)) ∧
      ((∀ m, .mode m ∉ opts) → action ws = .run f o.optimize o.links as) := by
  obtain ⟨o, h, m⟩ := C70_accepted ws opts rest r c
  have hm : ∀ x, Opt.mode x ∈ opts → o.mode = x := by
    intro x hx
    have hx : x ∈ opts.filterMap modeOf := List.mem_filterMap.2 ⟨_, hx, rfl⟩
    have hl := c.1
    rw [m.mode]
    match hf : opts.filterMap modeOf with
    | [] => rw [hf] at hx; simp at hx
    | [y] => rw [hf] at hx; simp at hx; simp [hx]
    | _ :: _ :: _ => rw [hf] at hl; simp at hl
  have hno : ∀ x, x ≠ .default → Opt.mode x ∉ opts → o.mode ≠ x := by
    intro x hx hn
    rw [m.mode]
    cases hf : opts.filterMap modeOf with
    | nil => exact Ne.symm hx
    | cons y ys =>
      rintro rfl
      have : y ∈ opts.filterMap modeOf := by rw [hf]; simp
      obtain ⟨z, h1, h2⟩ := List.mem_filterMap.1 this
      cases z with
      | mode b => simp [modeOf] at h2; subst h2; exact hn h1
      | _ => simp [modeOf] at h2
  refine ⟨o, m, fun hx => ?_, fun hx => ?_, fun h1 h2 hr => ?_, fun f as hr => ⟨fun hx => ?_, fun hx => ?_, fun hx => ?_⟩⟩
  · simp [action, h, hm _ hx]
  · simp [action, h, hm _ hx]
  · have a := hno .help (by decide) h1
    have b := hno .version (by decide) h2
    have hf : o.file = none := by rw [m.file, hr]; rfl
    simp [action, h, a, b, hf]
  · have hf : o.file = some f := by rw [m.file, hr]; rfl
    simp [action, h, hm _ hx, hf]
  · have hf : o.file = some f := by rw [m.file, hr]; rfl
    simp [action, h, hm _ hx, hf]
  · have hf : o.file = some f := by rw [m.file, hr]; rfl
    have ha : o.args = as := by rw [m.args, hr]; rfl
    simp [action, h, hno .help (by decide) (hx _), hno .version (by decide) (hx _), hno .format (by decide) (hx _), hno .disassembly (by decide) (hx _), hf, ha]

/-- `cordy -o --link m=l prog.cor -h`: the last word is an argument of the program. -/
example : Reads ["-o".toList, "--link".toList, "m=l".toList, "prog.cor".toList, "-h".toList] [.optimize, .link "m".toList "l".toList] ["prog.cor".toList, "-h".toList] ∧
    Consistent [.optimize, .link "m".toList "l".toList] := by
  refine ⟨⟨⟨[["-o".toList], ["--link".toList, "m=l".toList]], .cons (.optimize _ (.inl rfl)) (.cons (.link _ "m".toList "l".toList (.inr rfl) (by decide)) .nil), rfl⟩, ?_⟩, by decide, by decide⟩
  intro w hw
  simp at hw
  subst hw
  exact ⟨by decide, by decide⟩

example : action ["-o".toList, "--link".toList, "m=l".toList, "prog.cor".toList, "-h".toList] =
    .run "prog.cor".toList true [("m".toList, "l".toList)] ["-h".toList] := by decide
example : action ["-d".toList] = .repl [] := by decide
example : action ["-d".toList, "-f".toList] = .usage .modes := by decide

end Cordy.Cli
