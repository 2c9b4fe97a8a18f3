import Verif.Model.Search
import Verif.Props.Text
/-!
# C77: `search`, `replace` and `split` work on the same matches

The matches of a pattern in a text are those that the engine's iterator gives (`iterN`). `Lawful` is what is assumed of the engine.
-/
namespace Cordy.Search
variable {E S : Type}

/-- What the engine finds from a position on is not before this position, and inside the text. -/
structure Lawful (R : Regex) (len : Nat) : Prop where
  inside : ∀ p m, R.find p = .found m → p ≤ m.start ∧ m.start ≤ m.stop ∧ m.stop ≤ len

/-- The matches of the pattern in the text, and whether the engine gives up after these. -/
def Matches (R : Regex) (len : Nat) (r : List Match × Bool) : Prop := ∃ n, iterN R len n 0 none = some r

/-! ## Specification -/

/-- The text with the matches replaced. -/
def replaced (text : List Char) : Nat → List Match → List (List Char) → List Char
  | last, m :: ms, new :: news => part text last m.start ++ new ++ replaced text m.stop ms news
  | last, _, _ => text.drop last

/-- The function is called for the matches in order, up to the first call that fails. -/
def callAll (f : Result → S → Except E (List Char) × S) (text : List Char) : List Match → S → Except E (List (List Char)) × S
  | [], s => (.ok [], s)
  | m :: ms, s =>
    match f (asResult text m) s with
    | (.error e, s) => (.error e, s)
    | (.ok new, s) =>
      match callAll f text ms s with
      | (.ok news, s) => (.ok (new :: news), s)
      | (.error e, s) => (.error e, s)

/-! ## Termination -/

theorem iterN_more (R : Regex) (len : Nat) : ∀ (n p : Nat) (prev : Option Nat) r, iterN R len n p prev = some r → iterN R len (n + 1) p prev = some r
  | 0, _, _, r, h => by cases h
  | n + 1, p, prev, r, h => by
    rw [iterN] at h ⊢
    by_cases hp : p > len
    · rw [if_pos hp] at h ⊢; exact h
    · rw [if_neg hp] at h ⊢
      cases hf : R.find p with
      | gaveUp => rw [hf] at h; exact h
      | nothing => rw [hf] at h; exact h
      | found m =>
        rw [hf] at h
        simp only at h ⊢
        by_cases he : m.start = m.stop
        · rw [if_pos he] at h ⊢
          by_cases hv : prev = some m.stop
          · rw [if_pos hv] at h ⊢; exact iterN_more R len n _ _ _ h
          · rw [if_neg hv] at h ⊢
            obtain ⟨r', h1, h2⟩ := Option.map_eq_some_iff.1 h
            rw [iterN_more R len n _ _ _ h1, ← h2]; rfl
        · rw [if_neg he] at h ⊢
          obtain ⟨r', h1, h2⟩ := Option.map_eq_some_iff.1 h
          rw [iterN_more R len n _ _ _ h1, ← h2]; rfl

theorem iterN_le (R : Regex) (len : Nat) {n k : Nat} (hk : n ≤ k) {p prev r} (h : iterN R len n p prev = some r) : iterN R len k p prev = some r := by
  obtain ⟨d, rfl⟩ : ∃ d, k = n + d := ⟨k - n, by omega⟩
  induction d with
  | zero => exact h
  | succ d ih => exact iterN_more _ _ _ _ _ _ (ih (by omega))

theorem iterN_ends {R : Regex} {len : Nat} (hR : Lawful R len) : ∀ (n p : Nat) (prev : Option Nat), len + 1 < n + p → ∃ r, iterN R len (n + 1) p prev = some r
  | n, p, prev, h => by
    rw [iterN]
    by_cases hp : p > len
    · rw [if_pos hp]; exact ⟨_, rfl⟩
    · rw [if_neg hp]
      cases hf : R.find p with
      | gaveUp => exact ⟨_, rfl⟩
      | nothing => exact ⟨_, rfl⟩
      | found m =>
        obtain ⟨h1, h2, h3⟩ := hR.inside _ _ hf
        simp only
        obtain ⟨n, rfl⟩ : ∃ k, n = k + 1 := ⟨n - 1, by omega⟩
        by_cases he : m.start = m.stop
        · rw [if_pos he]
          by_cases hv : prev = some m.stop
          · rw [if_pos hv]; exact iterN_ends hR n _ _ (by omega)
          · rw [if_neg hv]
            obtain ⟨r, hr⟩ := iterN_ends hR n (m.stop + 1) (some m.stop) (by omega)
            exact ⟨_, by rw [hr]; rfl⟩
        · rw [if_neg he]
          obtain ⟨r, hr⟩ := iterN_ends hR n m.stop (some m.stop) (by omega)
          exact ⟨_, by rw [hr]; rfl⟩

/-- **C77** every pattern has matches in every text (perhaps none), and only these. -/
theorem C77_matches {R : Regex} {len : Nat} (hR : Lawful R len) : ∃ r, Matches R len r ∧ ∀ r', Matches R len r' → r' = r := by
  obtain ⟨r, hr⟩ := iterN_ends hR (len + 2) 0 none (by omega)
  refine ⟨r, ⟨_, hr⟩, ?_⟩
  rintro r' ⟨n, hn⟩
  have h1 := iterN_le R len (Nat.le_max_left n (len + 2 + 1)) hn
  have h2 := iterN_le R len (Nat.le_max_right n (len + 2 + 1)) hr
  rw [h1] at h2
  exact Option.some.inj h2

theorem searchN_more (R : Regex) : ∀ (n p : Nat) r, searchN R n p = some r → searchN R (n + 1) p = some r
  | 0, _, r, h => by cases h
  | n + 1, p, r, h => by
    rw [searchN] at h ⊢
    cases hf : R.find p with
    | gaveUp => rw [hf] at h; exact h
    | nothing => rw [hf] at h; exact h
    | found m =>
      rw [hf] at h
      simp only at h ⊢
      by_cases he : p = m.stop
      · rw [if_pos he] at h ⊢; exact h
      · rw [if_neg he] at h ⊢
        obtain ⟨r', h1, h2⟩ := Option.map_eq_some_iff.1 h
        rw [searchN_more R n _ _ h1, ← h2]; rfl

theorem searchN_ends {R : Regex} {len : Nat} (hR : Lawful R len) : ∀ (n p : Nat), len ≤ n + p → p ≤ len → ∃ r, searchN R (n + 1) p = some r
  | n, p, h, hp => by
    rw [searchN]
    cases hf : R.find p with
    | gaveUp => exact ⟨_, rfl⟩
    | nothing => exact ⟨_, rfl⟩
    | found m =>
      obtain ⟨h1, h2, h3⟩ := hR.inside _ _ hf
      simp only
      by_cases he : p = m.stop
      · rw [if_pos he]; exact ⟨_, rfl⟩
      · rw [if_neg he]
        obtain ⟨n, rfl⟩ : ∃ k, n = k + 1 := ⟨n - 1, by omega⟩
        obtain ⟨r, hr⟩ := searchN_ends hR n m.stop (by omega) h3
        exact ⟨_, by rw [hr]; rfl⟩

/-- **C77** `search` ends, for every pattern and every text, after at most one step more than the text has characters, also if the pattern matches the empty text. -/
theorem C77_search_ends {R : Regex} {len : Nat} (hR : Lawful R len) : ∃ r, ∀ n, len < n → searchN R n 0 = some r := by
  obtain ⟨r, h1⟩ := searchN_ends hR len 0 (by omega) (by omega)
  refine ⟨r, fun n hn => ?_⟩
  obtain ⟨d, rfl⟩ : ∃ d, n = len + 1 + d := ⟨n - (len + 1), by omega⟩
  clear hn
  induction d with
  | zero => exact h1
  | succ d ih => exact searchN_more _ _ _ _ ih

/-! ## `search` -/

/-- Consecutive matches that do not overlap, within the text from `p` on. -/
def Ordered (len : Nat) : Nat → List Match → Prop
  | p, [] => p ≤ len
  | p, m :: ms => p ≤ m.start ∧ m.start ≤ m.stop ∧ m.stop ≤ len ∧ Ordered len m.stop ms

theorem search_sound {R : Regex} {len : Nat} (hR : Lawful R len) : ∀ (n p : Nat) ms, p ≤ len → searchN R n p = some (.ok ms) → Ordered len p ms ∧ ∀ m ∈ ms, ∃ q, R.find q = .found m
  | 0, _, _, _, h => by cases h
  | n + 1, p, ms, hp, h => by
    rw [searchN] at h
    cases hf : R.find p with
    | gaveUp => rw [hf] at h; cases h
    | nothing => rw [hf] at h; cases h; exact ⟨hp, by simp⟩
    | found m =>
      rw [hf] at h
      simp only at h
      obtain ⟨h1, h2, h3⟩ := hR.inside _ _ hf
      by_cases he : p = m.stop
      · rw [if_pos he] at h; cases h; exact ⟨hp, by simp⟩
      · rw [if_neg he] at h
        obtain ⟨r, h4, h5⟩ := Option.map_eq_some_iff.1 h
        cases r with
        | error e => cases h5
        | ok ms' =>
          simp only [Except.map, Except.ok.injEq] at h5
          subst h5
          obtain ⟨g1, g2⟩ := search_sound hR n _ _ h3 h4
          refine ⟨⟨h1, h2, h3, g1⟩, fun m' hm => ?_⟩
          rcases List.mem_cons.1 hm with rfl | hm
          · exact ⟨p, hf⟩
          · exact g2 m' hm

/-- **C77** what `search` gives are matches of the pattern, from left to right, which do not overlap. -/
theorem C77_search_sound {R : Regex} {len : Nat} (hR : Lawful R len) (n : Nat) (ms) (h : searchN R n 0 = some (.ok ms)) : Ordered len 0 ms ∧ ∀ m ∈ ms, ∃ q, R.find q = .found m :=
  search_sound hR n 0 ms (Nat.zero_le _) h

theorem search_iter {R : Regex} {len : Nat} (hR : Lawful R len) (hne : ∀ p m, R.find p = .found m → m.start ≠ m.stop) : ∀ (n p : Nat) (prev : Option Nat) r, p ≤ len → iterN R len n p prev = some r →
    searchN R n p = some (if r.2 then .error () else .ok r.1)
  | 0, _, _, _, _, h => by cases h
  | n + 1, p, prev, r, hp, h => by
    rw [iterN, if_neg (by omega)] at h
    rw [searchN]
    cases hf : R.find p with
    | gaveUp => rw [hf] at h; cases h; rfl
    | nothing => rw [hf] at h; cases h; rfl
    | found m =>
      rw [hf] at h
      simp only at h ⊢
      obtain ⟨h1, h2, h3⟩ := hR.inside _ _ hf
      have := hne _ _ hf
      rw [if_neg this] at h
      rw [if_neg (show p ≠ m.stop by omega)]
      obtain ⟨r', h4, h5⟩ := Option.map_eq_some_iff.1 h
      rw [search_iter hR hne n _ _ _ h3 h4, ← h5]
      cases r'.2 <;> rfl

/-- **C77** `search` gives all matches of the pattern in the text, the same that `replace` and `split` use.

Missing: patterns that match the empty text (`C77_search_violation`); the engine gives up (then it panics). -/
theorem C77_search_partial {R : Regex} {len : Nat} (hR : Lawful R len) (hne : ∀ p m, R.find p = .found m → m.start ≠ m.stop) (ms) (h : Matches R len (ms, false)) : ∃ n, searchN R n 0 = some (.ok ms) := by
  obtain ⟨n, hn⟩ := h
  exact ⟨n, search_iter hR hne n 0 none _ (Nat.zero_le _) hn⟩

/-- **C77**, violated: if the engine gives up (fancy-regex does, after a million backtracking steps), `search` panics. -/
theorem C77_search_panic_violation {R : Regex} {len : Nat} (hR : Lawful R len) (hne : ∀ p m, R.find p = .found m → m.start ≠ m.stop) (ms) (h : Matches R len (ms, true)) : ∃ n, searchN R n 0 = some (.error ()) := by
  obtain ⟨n, hn⟩ := h
  exact ⟨n, search_iter hR hne n 0 none _ (Nat.zero_le _) hn⟩

/-- **C77** what is given for a match (by `search`, and to the function of `replace`): its text, if the pattern has no groups; else a vector of its text and of what each group matched, `nil` for a group that took no part. -/
theorem C77_result (text : List Char) (m : Match) :
    (m.groups = [] → asResult text m = .str ((text.drop m.start).take (m.stop - m.start))) ∧
    (m.groups ≠ [] → ∃ vs, asResult text m = .vec vs ∧ vs.length = m.groups.length + 1 ∧ vs[0]? = some (some ((text.drop m.start).take (m.stop - m.start))) ∧
      ∀ i : Nat, (m.groups[i]? = some none → vs[i + 1]? = some none) ∧ ∀ a b, m.groups[i]? = some (some (a, b)) → vs[i + 1]? = some (some ((text.drop a).take (b - a)))) := by
  refine ⟨fun h => by simp [asResult, h, part], fun h => ?_⟩
  have : ¬ m.groups.length + 1 = 1 := by
    intro h'
    exact h (List.length_eq_zero_iff.1 (by omega))
  refine ⟨_, by rw [asResult, if_neg this], by simp, by simp [part], fun i => ⟨fun hi => by simp [hi], fun a b hi => by simp [hi, part]⟩⟩

/-- **C77**, violated: if the engine gives up, `replace` panics too. -/
theorem C77_replace_panic_violation (f : Result → S → Except E (List Char) × S) (new text : List Char) (s : S) (ms : List Match) : replaceStr new text (ms, true) = none ∧ replaceFn f text s (ms, true) = none := ⟨rfl, rfl⟩

/-! ## The matches are in order -/

theorem iter_ordered {R : Regex} {len : Nat} (hR : Lawful R len) : ∀ (n p q : Nat) (prev : Option Nat) ms g, q ≤ p → q ≤ len → iterN R len n p prev = some (ms, g) → Ordered len q ms
  | 0, _, _, _, _, _, _, _, h => by cases h
  | n + 1, p, q, prev, ms, g, hq, hq', h => by
    rw [iterN] at h
    by_cases hp : p > len
    · rw [if_pos hp] at h; cases h; exact hq'
    · rw [if_neg hp] at h
      cases hf : R.find p with
      | gaveUp => rw [hf] at h; cases h; exact hq'
      | nothing => rw [hf] at h; cases h; exact hq'
      | found m =>
        rw [hf] at h
        simp only at h
        obtain ⟨h1, h2, h3⟩ := hR.inside _ _ hf
        by_cases he : m.start = m.stop
        · rw [if_pos he] at h
          by_cases hv : prev = some m.stop
          · rw [if_pos hv] at h; exact iter_ordered hR n _ q _ _ _ (by omega) hq' h
          · rw [if_neg hv] at h
            obtain ⟨⟨ms', g'⟩, h4, h5⟩ := Option.map_eq_some_iff.1 h
            cases h5
            exact ⟨by omega, h2, h3, iter_ordered hR n _ m.stop _ _ _ (by omega) h3 h4⟩
        · rw [if_neg he] at h
          obtain ⟨⟨ms', g'⟩, h4, h5⟩ := Option.map_eq_some_iff.1 h
          cases h5
          exact ⟨by omega, h2, h3, iter_ordered hR n _ m.stop _ _ _ (Nat.le_refl _) h3 h4⟩

/-! ## `replace` and `split` -/

theorem replaceLoop_const (new text : List Char) : ∀ (ms : List Match) (last : Nat), Ordered text.length last ms →
    (replaceLoop (S := Unit) (fun _ s => (new, s)) text ms last ()).1 = List.intercalate new (Str.splitAt text last (ms.map fun m => (m.start, m.stop)))
  | [], last, h => by
    have : ¬ last > text.length := by simp only [Ordered] at h; omega
    simp [replaceLoop, Str.splitAt, this, List.intercalate]
  | m :: ms, last, ⟨h1, h2, h3, h4⟩ => by
    have ih := replaceLoop_const new text ms m.stop h4
    simp only [replaceLoop, List.map_cons, Str.splitAt]
    rw [ih]
    have hne : Str.splitAt text m.stop (ms.map fun m => (m.start, m.stop)) ≠ [] := by
      cases ms with
      | nil => have : ¬ m.stop > text.length := by omega
               simp [Str.splitAt, this]
      | cons m' ms => simp [Str.splitAt]
    cases hs : Str.splitAt text m.stop (ms.map fun m => (m.start, m.stop)) with
    | nil => exact absurd hs hne
    | cons y ys => simp [List.intercalate, List.intersperse, part]

/-- **C77** `replace(p, s, x)` is `x . split(p) . join(s)`. -/
theorem C77_replace_split {R : Regex} (text new : List Char) (hR : Lawful R text.length) (ms) (h : Matches R text.length (ms, false)) :
    replaceStr new text (ms, false) = some (Str.join new (split text (ms, false))) := by
  obtain ⟨n, hn⟩ := h
  rw [Str.C52_join_spec]
  exact congrArg some (replaceLoop_const new text ms 0 (iter_ordered hR n 0 0 none ms false (Nat.le_refl _) (Nat.zero_le _) hn))

theorem split_weave {R : Regex} (text : List Char) (hR : Lawful R text.length) (ms) (h : Matches R text.length (ms, false)) :
    (split text (ms, false)).length = ms.length + 1 ∧ Str.weave text (split text (ms, false)) (ms.map fun m => (m.start, m.stop)) = text := by
  obtain ⟨n, hn⟩ := h
  have ho := iter_ordered hR n 0 0 none ms false (Nat.le_refl _) (Nat.zero_le _) hn
  have : ∀ (ms : List Match) (p : Nat), Ordered text.length p ms → Str.Ordered text.length p (ms.map fun m => (m.start, m.stop)) := by
    intro ms
    induction ms with
    | nil => intro p h; exact h
    | cons m ms ih => rintro p ⟨h1, h2, h3, h4⟩; exact ⟨h1, h2, h3, ih _ h4⟩
  have := Str.C52_split_regex text _ (this ms 0 ho)
  simpa [split] using this

/-- **C77** `split` cuts the text exactly at the matches. -/
theorem C77_split {R : Regex} (text : List Char) (hR : Lawful R text.length) (ms) (h : Matches R text.length (ms, false)) :
    (split text (ms, false)).length = ms.length + 1 ∧ Str.weave text (split text (ms, false)) (ms.map fun m => (m.start, m.stop)) = text := split_weave text hR ms h

theorem replaceFn_loop (f : Result → S → Except E (List Char) × S) (text : List Char) : ∀ (ms : List Match) (last : Nat) (s s' : S) (news), callAll f text ms s = (.ok news, s') →
    replaceLoop (catchCall f text) text ms last (none, s) = (replaced text last ms news, (none, s'))
  | [], last, s, s', news, h => by cases h; rfl
  | m :: ms, last, s, s', news, h => by
    rw [callAll] at h
    rcases hf : f (asResult text m) s with ⟨e | new, s1⟩ <;> rw [hf] at h <;> simp only at h
    · cases h
    · rcases hc : callAll f text ms s1 with ⟨e | news', s2⟩ <;> rw [hc] at h <;> simp only at h
      · cases h
      · cases h
        simp only [replaceLoop, catchCall, hf]
        rw [replaceFn_loop f text ms m.stop s1 s' news' hc]
        simp [replaced]

/-- **C77** `replace` with a function calls it once for each match, in order, with what `search` gives for this match; and the result is the text with each match replaced by what the call gave.

Missing: calls that fail (`C77_replace_violation`). -/
theorem C77_replace_partial (f : Result → S → Except E (List Char) × S) (text : List Char) (ms : List Match) (s s' : S) (news) (h : callAll f text ms s = (.ok news, s')) :
    replaceFn f text s (ms, false) = some (.ok (replaced text 0 ms news), s') := by
  simp [replaceFn, replaceFn_loop f text ms 0 s s' news h]

theorem loop_keeps (f : Result → S → Except E (List Char) × S) (text : List Char) : ∀ (ms : List Match) (last : Nat) (e : E) (s : S), ∃ new e' s', replaceLoop (catchCall f text) text ms last (some e, s) = (new, (some e', s'))
  | [], last, e, s => ⟨_, e, s, rfl⟩
  | m :: ms, last, e, s => by
    simp only [replaceLoop, catchCall]
    rcases f (asResult text m) s with ⟨e1 | new, s1⟩
    · obtain ⟨a, b, c, h⟩ := loop_keeps f text ms m.stop e1 s1
      exact ⟨_, b, c, by rw [h]⟩
    · obtain ⟨a, b, c, h⟩ := loop_keeps f text ms m.stop e s1
      exact ⟨_, b, c, by rw [h]⟩

theorem loop_fails (f : Result → S → Except E (List Char) × S) (text : List Char) : ∀ (ms : List Match) (last : Nat) (s s' : S) (e), callAll f text ms s = (.error e, s') →
    ∃ new e' s'', replaceLoop (catchCall f text) text ms last (none, s) = (new, (some e', s''))
  | [], last, s, s', e, h => by cases h
  | m :: ms, last, s, s', e, h => by
    rw [callAll] at h
    simp only [replaceLoop, catchCall]
    rcases hf : f (asResult text m) s with ⟨e1 | new, s1⟩ <;> rw [hf] at h <;> simp only at h
    · obtain ⟨a, b, c, h⟩ := loop_keeps f text ms m.stop e1 s1
      exact ⟨_, b, c, by rw [h]⟩
    · rcases hc : callAll f text ms s1 with ⟨e2 | news', s2⟩ <;> rw [hc] at h <;> simp only at h
      · obtain ⟨a, b, c, h⟩ := loop_fails f text ms m.stop s1 s2 e2 hc
        exact ⟨_, b, c, by rw [h]⟩
      · cases h

/-- **C77** if a call fails, `replace` fails (with some error). -/
theorem C77_replace_fails (f : Result → S → Except E (List Char) × S) (text : List Char) (ms : List Match) (s s' : S) (e) (h : callAll f text ms s = (.error e, s')) :
    ∃ e' s'', replaceFn f text s (ms, false) = some (.error e', s'') := by
  obtain ⟨new, e', s'', hl⟩ := loop_fails f text ms 0 s s' e h
  exact ⟨e', s'', by simp [replaceFn, hl]⟩

theorem replaced_self (text : List Char) : ∀ (ms : List Match) (p : Nat), Ordered text.length p ms → replaced text p ms (ms.map fun m => part text m.start m.stop) = text.drop p
  | [], p, _ => rfl
  | m :: ms, p, ⟨h1, h2, h3, h4⟩ => by
    rw [List.map_cons, replaced, replaced_self text ms _ h4]
    simp only [part]
    rw [show text.drop m.stop = (text.drop m.start).drop (m.stop - m.start) by rw [List.drop_drop]; congr 1; omega, List.append_assoc, List.take_append_drop,
      show text.drop m.start = (text.drop p).drop (m.start - p) by rw [List.drop_drop]; congr 1; omega, List.take_append_drop]

/-- The text of the match that a function gets. -/
def Result.text : Result → List Char
  | .str s => s
  | .vec (some s :: _) => s
  | .vec _ => []

theorem text_asResult (text : List Char) (m : Match) : (asResult text m).text = part text m.start m.stop := by
  unfold asResult
  split <;> rfl

theorem callAll_self (text : List Char) (s : S) : ∀ (ms : List Match), callAll (E := E) (fun r s => (.ok r.text, s)) text ms s = (.ok (ms.map fun m => part text m.start m.stop), s)
  | [] => rfl
  | m :: ms => by
    rw [callAll]
    simp only [callAll_self text s ms, text_asResult, List.map_cons]

/-- **C77** replacing every match by itself changes nothing. -/
theorem C77_replace_self {R : Regex} (text : List Char) (s : S) (hR : Lawful R text.length) (ms) (h : Matches R text.length (ms, false)) :
    replaceFn (E := E) (fun r s => (.ok r.text, s)) text s (ms, false) = some (.ok text, s) := by
  obtain ⟨n, hn⟩ := h
  rw [C77_replace_partial _ text ms s s _ (callAll_self text s ms), replaced_self text ms 0 (iter_ordered hR n 0 0 none ms false (Nat.le_refl _) (Nat.zero_le _) hn)]
  rfl

/-! ## Violations -/

/-- The pattern `a*` in a text: what it matches at a position is the longest run of `a`. -/
def aStar (text : List Char) : Regex := ⟨fun p => if p > text.length then .nothing else .found ⟨p, p + ((text.drop p).takeWhile (· == 'a')).length, []⟩⟩

theorem aStar_lawful (text : List Char) : Lawful (aStar text) text.length := by
  constructor
  intro p m h
  simp only [aStar] at h
  split at h
  · cases h
  · injection h with h
    subst h
    have := (List.takeWhile_sublist (· == 'a') (l := text.drop p)).length_le
    rw [List.length_drop] at this
    simp only
    omega

/-- **C77**, violated: `'baa' . search('a*')` is empty, though `'baa' . replace('a*', 'x')` replaces two matches, the empty one before `b` and `aa`: the loop of `search` ends at the first empty match that is where it stands. -/
theorem C77_search_violation : ∃ (text : List Char) (R : Regex) (ms : List Match), Lawful R text.length ∧ Matches R text.length (ms, false) ∧
    ms.map (fun m => part text m.start m.stop) = [[], ['a', 'a']] ∧ replaceStr ['x'] text (ms, false) = some "xbx".toList ∧ ∀ n, text.length < n → searchN R n 0 = some (.ok []) := by
  refine ⟨"baa".toList, aStar "baa".toList, [⟨0, 0, []⟩, ⟨1, 3, []⟩], aStar_lawful _, ⟨6, by decide +kernel⟩, by decide +kernel, by decide +kernel, fun n hn => ?_⟩
  obtain ⟨k, rfl⟩ : ∃ k, n = k + 1 := ⟨n - 1, by omega⟩
  rfl

/-- The pattern `[xy]` (one character of a set) in a text. -/
def oneOf (cs text : List Char) : Regex := ⟨fun p => match (text.drop p).findIdx? (cs.contains ·) with
  | some i => .found ⟨p + i, p + i + 1, []⟩
  | none => .nothing⟩

theorem oneOf_lawful (cs text : List Char) : Lawful (oneOf cs text) text.length := by
  constructor
  intro p m h
  simp only [oneOf] at h
  split at h
  · rename_i i hi
    injection h with h
    subst h
    obtain ⟨hlt, _⟩ := List.findIdx?_eq_some_iff_getElem.1 hi
    rw [List.length_drop] at hlt
    simp only
    omega
  · cases h

/-- **C77**, violated: a call that fails does not end `replace`: the function is called for the later matches too, and the error that is reported is that of the last call that failed. -/
theorem C77_replace_violation : ∃ (text : List Char) (ms : List Match) (f : Result → List Result → Except Nat (List Char) × List Result),
    Matches (oneOf ['x', 'y'] text) text.length (ms, false) ∧ callAll f text ms [] = (.error 1, [.str ['x']]) ∧
    replaceFn f text [] (ms, false) = some (.error 2, [.str ['x'], .str ['y']]) :=
  ⟨"axby".toList, [⟨1, 2, []⟩, ⟨3, 4, []⟩], fun r calls => (.error (calls.length + 1), calls ++ [r]), ⟨6, by decide +kernel⟩, by decide +kernel, by decide +kernel⟩

/-- **C77**, violated: if the engine gives up, `split` loses the rest of the text, without an error. -/
theorem C77_split_violation : ∃ (text : List Char) (R : Regex) (ms : List Match), Lawful R text.length ∧ Matches R text.length (ms, true) ∧ split text (ms, true) = ["a".toList] := by
  refine ⟨"a,bcd".toList, ⟨fun p => if p = 0 then .found ⟨1, 2, []⟩ else .gaveUp⟩, [⟨1, 2, []⟩], ⟨?_⟩, ⟨6, by decide +kernel⟩, by decide +kernel⟩
  intro p m h
  simp only at h
  split at h
  · cases h; subst p; decide +kernel
  · cases h

/-! ## Examples -/

/-- A match with two groups, one of which took no part. -/
example : asResult "axby".toList ⟨1, 3, [some (2, 3), none]⟩ = .vec [some "xb".toList, some "b".toList, none] := by decide +kernel

/-- Two matches: `search`, `split` and `replace` with a function. -/
example : searchN (oneOf ['x', 'y'] "axby".toList) 5 0 = some (.ok [⟨1, 2, []⟩, ⟨3, 4, []⟩]) ∧ split "axby".toList ([⟨1, 2, []⟩, ⟨3, 4, []⟩], false) = ["a".toList, "b".toList, []] ∧
    replaceFn (E := Unit) (fun r n => (.ok (r.text ++ (toString n).toList), n + 1)) "axby".toList 0 ([⟨1, 2, []⟩, ⟨3, 4, []⟩], false) = some (.ok "ax0by1".toList, 2) := by decide +kernel

/-- With groups, the function gets a vector; a group that took no part is nil. -/
example : asResult "axby".toList ⟨1, 4, [some (2, 3), none]⟩ = .vec [some "xby".toList, some "b".toList, none] := by decide +kernel

end Cordy.Search
