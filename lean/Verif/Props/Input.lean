import Verif.Model.Input
import Mathlib.Data.List.Lemmas
import Mathlib.Tactic.Ring
import Mathlib.Tactic.Linarith
import Mathlib.Data.Nat.Digits.Lemmas

/-! C59: command line. -/

namespace Verif.Input

/-- Independent specification: a file name with a YAML extension is one that ends with `.yaml` or `.yml`, preceded by at least one character other than `/`
(so that `dir/.yaml` is a hidden file without extension). -/
def YamlPath (p : List Char) : Prop :=
  ∃ q x, x ≠ '/' ∧ (p = q ++ x :: ".yaml".toList ∨ p = q ++ x :: ".yml".toList)

private theorem takeWhile_append_stop {α : Type} {P : α → Bool} : ∀ (l r : List α), (∀ a ∈ l, P a = true) →
    (∀ a, r.head? = some a → P a = false) → (l ++ r).takeWhile P = l
  | [], [], _, _ => rfl
  | [], a :: r, _, h => by simp [List.takeWhile_cons, h a rfl]
  | b :: l, r, hl, h => by
    have := takeWhile_append_stop l r (fun a ha => hl a (List.mem_cons_of_mem _ ha)) h
    simp [List.takeWhile_cons, hl b (List.mem_cons_self ..), this]

private theorem split_last (c : Char) (p : List Char) :
    (c ∉ p ∧ (p.reverse.takeWhile fun x => x ≠ c).reverse = p) ∨
    (∃ q r, p = q ++ c :: r ∧ c ∉ r ∧ (p.reverse.takeWhile fun x => x ≠ c).reverse = r) := by
  by_cases h : c ∈ p
  · right
    have h' : c ∈ p.reverse := by simpa using h
    obtain ⟨s, t, hst, hs⟩ := List.append_of_mem h' |> fun _ => List.eq_append_cons_of_mem h'
    refine ⟨t.reverse, s.reverse, ?_, by simpa using hs, ?_⟩
    · have := congrArg List.reverse hst
      simpa using this
    · rw [hst, takeWhile_append_stop s (c :: t)]
      · intro a ha; simp; rintro rfl; exact hs ha
      · simp
  · left
    refine ⟨h, ?_⟩
    have := takeWhile_append_stop (P := fun x => decide (x ≠ c)) p.reverse [] (by
      intro a ha; simp; rintro rfl; simp at ha; exact h ha) (by simp)
    simp only [List.append_nil] at this
    rw [this, List.reverse_reverse]

/-- The file name is the part after the last separator. -/
private theorem filename_spec (p : List Char) : '/' ∉ filename p ∧ ∃ d, p = d ++ filename p ∧ (d = [] ∨ ∃ e, d = e ++ ['/']) := by
  rcases split_last '/' p with ⟨h, he⟩ | ⟨q, r, hp, hr, he⟩
  · have hf : filename p = p := he
    exact ⟨by rw [hf]; exact h, [], by simp [hf], Or.inl rfl⟩
  · have hf : filename p = r := he
    exact ⟨by rw [hf]; exact hr, q ++ ['/'], by rw [hf, hp]; simp, Or.inr ⟨q, rfl⟩⟩

private theorem filename_unique (d f : List Char) (hf : '/' ∉ f) (hd : d = [] ∨ ∃ e, d = e ++ ['/']) :
    filename (d ++ f) = f := by
  unfold filename
  rw [List.reverse_append, takeWhile_append_stop f.reverse d.reverse]
  · simp
  · intro a ha; simp at ha ⊢; rintro rfl; exact hf ha
  · rcases hd with rfl | ⟨e, rfl⟩ <;> simp

/-- `extension p = '.' :: e` with `e` without period. -/
private theorem extension_spec (p e : List Char) (he : '.' ∉ e) (he0 : e ≠ []) :
    extension p = '.' :: e ↔ ∃ s, s ≠ [] ∧ filename p = s ++ '.' :: e := by
  unfold extension
  generalize filename p = f
  constructor
  · intro h
    simp only at h
    split_ifs at h with h1 h2
    · rcases split_last '.' f with ⟨hn, _⟩ | ⟨q, r, hf, hr, hre⟩
      · exact absurd h2.1 hn
      · rw [hre] at h h2
        have h3 : r = e := by simpa using h
        subst h3
        refine ⟨q, ?_, hf⟩
        have h4 := h2.2
        rw [hf] at h4
        rintro rfl
        simp at h4
  · rintro ⟨s, hs, hf⟩
    have hne : ¬ (f = ['.'] ∨ f = ['.', '.']) := by
      rintro (h | h) <;> rw [hf] at h <;> have hl := congrArg List.length h <;> simp at hl
      · exact he0 (List.eq_nil_of_length_eq_zero (by omega))
      · have h1 : 0 < s.length := List.length_pos_iff.2 hs
        have h2 : 0 < e.length := List.length_pos_iff.2 he0
        omega
    simp only [hne, if_false]
    have ht : (f.reverse.takeWhile fun c => c ≠ '.').reverse = e := by
      rw [hf]
      simp only [List.reverse_append, List.reverse_cons, List.append_assoc]
      rw [takeWhile_append_stop e.reverse]
      · simp
      · intro a ha; simp at ha ⊢; rintro rfl; exact he ha
      · simp
    rw [ht, if_pos]
    refine ⟨by rw [hf]; simp, ?_⟩
    have : f.length - e.length - 1 = s.length := by rw [hf, List.length_append, List.length_cons]; omega
    rw [this, hf, List.take_left']
    · exact hs
    · rfl

private theorem ext_suffix (p e : List Char) (he : '.' ∉ e) (he0 : e ≠ []) (hs : '/' ∉ e) :
    extension p = '.' :: e ↔ ∃ q x, x ≠ '/' ∧ p = q ++ x :: '.' :: e := by
  rw [extension_spec p e he he0]
  constructor
  · rintro ⟨s, hne, hf⟩
    obtain ⟨hn, d, hp, _⟩ := filename_spec p
    rcases List.eq_nil_or_concat s with rfl | ⟨s', x, rfl⟩
    · exact absurd rfl hne
    · refine ⟨d ++ s', x, ?_, ?_⟩
      · rintro rfl; apply hn; rw [hf]; simp
      · rw [hp, hf]; simp
  · rintro ⟨q, x, hx, hp⟩
    obtain ⟨hn, d, hq, hd⟩ := filename_spec q
    refine ⟨filename q ++ [x], by simp, ?_⟩
    have : p = d ++ (filename q ++ x :: '.' :: e) := by rw [← List.append_assoc, ← hq]; exact hp
    rw [this, filename_unique _ _ _ hd]
    · simp
    · simp only [List.mem_append, List.mem_cons, not_or]
      exact ⟨hn, fun h => hx h.symm, by decide, hs⟩

/-- **C59** (extension): the code accepts exactly the paths that end with `.yaml` or `.yml` after at least one character of the file name. -/
theorem c59_extension (p : List Char) : isYaml p = true ↔ YamlPath p := by
  unfold isYaml YamlPath
  have h1 := ext_suffix p "yaml".toList (by decide) (by decide) (by decide)
  have h2 := ext_suffix p "yml".toList (by decide) (by decide) (by decide)
  have e1 : ".yaml".toList = '.' :: "yaml".toList := by decide
  have e2 : ".yml".toList = '.' :: "yml".toList := by decide
  rw [Bool.or_eq_true, decide_eq_true_iff, decide_eq_true_iff, e1, e2, h1, h2]
  constructor
  · rintro (⟨q, x, hx, h⟩ | ⟨q, x, hx, h⟩)
    exacts [⟨q, x, hx, Or.inl h⟩, ⟨q, x, hx, Or.inr h⟩]
  · rintro ⟨q, x, hx, h | h⟩
    exacts [Or.inl ⟨q, x, hx, h⟩, Or.inr ⟨q, x, hx, h⟩]

example : YamlPath "out/run.1.yaml".toList := ⟨"out/run.".toList, '1', by decide, Or.inl (by decide)⟩
example : ¬ isYaml "out/.yaml".toList = true := by decide
example : ¬ isYaml "run.yaml/".toList = true := by decide
example : isYaml "..yml".toList = true := by decide

/-- **C59**: the function returns with file `p` and start iteration `n` exactly for the command lines `prog p` (then `n = 0`) and
`prog --iter-restart i p` (then `n` is the number read in `i`), where `p` is a YAML file. -/
theorem c59_returns (params : List Char) (argv : List (List Char)) (p : List Char) (n : ℤ) :
    parseRestart params argv = .returns p n ↔
      YamlPath p ∧ ((∃ prog, argv = [prog, p] ∧ n = 0) ∨
        ∃ prog i, argv = [prog, "--iter-restart".toList, i, p] ∧ n = strtol i) := by
  rw [← c59_extension]
  unfold parseRestart
  constructor
  · intro h
    split at h
    · split_ifs at h with h1
      simp only [Outcome.returns.injEq] at h
      obtain ⟨rfl, rfl⟩ := h
      exact ⟨h1, Or.inl ⟨_, rfl, rfl⟩⟩
    · split_ifs at h
    · split_ifs at h with h1 h2
      simp only [Outcome.returns.injEq] at h
      obtain ⟨rfl, rfl⟩ := h
      subst h1
      exact ⟨h2, Or.inr ⟨_, _, rfl, rfl⟩⟩
    · exact absurd h (by simp)
  · rintro ⟨hy, ⟨prog, rfl, rfl⟩ | ⟨prog, i, rfl, rfl⟩⟩ <;> simp [hy]

/-- **C59**: a configuration file is written, and the program ends with success, exactly for `prog --dump-config file`. -/
theorem c59_dumps (params : List Char) (argv : List (List Char)) (file text : List Char) :
    parseRestart params argv = .dumps file text ↔
      text = params ∧ ∃ prog, argv = [prog, "--dump-config".toList, file] := by
  unfold parseRestart
  constructor
  · intro h
    split at h
    · split_ifs at h
    · split_ifs at h with h1
      simp only [Outcome.dumps.injEq] at h
      obtain ⟨rfl, rfl⟩ := h
      subst h1
      exact ⟨rfl, _, rfl⟩
    · split_ifs at h
    · exact absurd h (by simp)
  · rintro ⟨rfl, prog, rfl⟩; simp

/-- **C59**: every other command line terminates the program with a failure. -/
theorem c59_fails (params : List Char) (argv : List (List Char)) :
    parseRestart params argv = .fails ↔
      ¬ (∃ prog p, YamlPath p ∧ argv = [prog, p]) ∧ ¬ (∃ prog i p, YamlPath p ∧ argv = [prog, "--iter-restart".toList, i, p]) ∧
      ¬ (∃ prog file, argv = [prog, "--dump-config".toList, file]) := by
  constructor
  · intro h
    refine ⟨?_, ?_, ?_⟩
    · rintro ⟨prog, p, hy, e⟩
      have := (c59_returns params argv p 0).2 ⟨hy, Or.inl ⟨prog, e, rfl⟩⟩
      rw [h] at this; cases this
    · rintro ⟨prog, i, p, hy, e⟩
      have := (c59_returns params argv p (strtol i)).2 ⟨hy, Or.inr ⟨prog, i, e, rfl⟩⟩
      rw [h] at this; cases this
    · rintro ⟨prog, file, e⟩
      have := (c59_dumps params argv file params).2 ⟨rfl, prog, e⟩
      rw [h] at this; cases this
  · rintro ⟨h1, h2, h3⟩
    cases h : parseRestart params argv with
    | fails => rfl
    | returns p n =>
      obtain ⟨hy, ⟨prog, e, _⟩ | ⟨prog, i, e, _⟩⟩ := (c59_returns params argv p n).1 h
      · exact absurd ⟨prog, p, hy, e⟩ h1
      · exact absurd ⟨prog, i, p, hy, e⟩ h2
    | dumps f t =>
      obtain ⟨_, prog, e⟩ := (c59_dumps params argv f t).1 h
      exact absurd ⟨prog, f, e⟩ h3

/-- **C59**: the overload without restart behaves as the other one, except that a restart is refused. -/
theorem c59_overload (params : List Char) (argv : List (List Char)) :
    parse params argv = if argv.length = 4 then .fails else parseRestart params argv := by
  match argv with
  | [] => rfl
  | [_] => rfl
  | [_, _] => rfl
  | [_, _, _] => rfl
  | [_, _, _, _] => rfl
  | _ :: _ :: _ :: _ :: _ :: _ => simp [parse, parseRestart]

/-! ### The restart iteration -/

private theorem digit_ok (d : ℕ) (h : d < 10) : isDigit (Nat.digitChar d) = true ∧ digitVal (Nat.digitChar d) = d := by
  interval_cases d <;> decide

/-- Decimal representation, most significant digit first, written without the functions of the model. -/
def decimal (n : ℕ) : List Char := if n = 0 then ['0'] else ((Nat.digits 10 n).map Nat.digitChar).reverse

private theorem decimal_digits (n : ℕ) : ∀ c ∈ decimal n, isDigit c = true := by
  intro c hc
  unfold decimal at hc
  split_ifs at hc with h
  · simp at hc; subst hc; decide
  · simp only [List.mem_reverse, List.mem_map] at hc
    obtain ⟨d, hd, rfl⟩ := hc
    exact (digit_ok d (Nat.digits_lt_base (by norm_num) hd)).1

private theorem fold_digits : ∀ (l : List ℕ), (∀ d ∈ l, d < 10) →
    ((l.map Nat.digitChar).reverse).foldl (fun acc c => 10 * acc + digitVal c) 0 = Nat.ofDigits 10 l
  | [], _ => by simp
  | d :: l, h => by
    have ih := fold_digits l fun x hx => h x (List.mem_cons_of_mem _ hx)
    rw [List.map_cons, List.reverse_cons, List.foldl_append, ih, Nat.ofDigits_cons]
    simp [(digit_ok d (h d (List.mem_cons_self ..))).2]
    ring

private theorem leading_decimal (n : ℕ) (t : List Char) (ht : ∀ c, t.head? = some c → isDigit c = false) :
    leadingNumber (decimal n ++ t) = n := by
  unfold leadingNumber
  rw [takeWhile_append_stop _ _ (decimal_digits n) ht]
  unfold decimal
  split_ifs with h
  · subst h; decide
  · rw [fold_digits _ fun d hd => Nat.digits_lt_base (by norm_num) hd, Nat.ofDigits_digits]

private theorem decimal_ne_nil (n : ℕ) : decimal n ≠ [] := by
  unfold decimal
  split_ifs with h
  · simp
  · simp [Nat.digits_ne_nil_iff_ne_zero.2 h]

private theorem strtol_pre (n : ℕ) (t : List Char) :
    ∃ c l, decimal n ++ t = c :: l ∧ isSpace c = false ∧ c ≠ '-' ∧ c ≠ '+' := by
  have hd := decimal_digits n
  cases hc : decimal n with
  | nil => exact absurd hc (decimal_ne_nil n)
  | cons c l =>
    have h := hd c (by rw [hc]; exact List.mem_cons_self ..)
    refine ⟨c, l ++ t, rfl, ?_, ?_, ?_⟩
    · rcases Bool.eq_false_or_eq_true (isSpace c) with h' | h'
      · exfalso
        simp only [isSpace, Bool.or_eq_true, decide_eq_true_eq] at h'
        rcases h' with ((((rfl | rfl) | rfl) | rfl) | rfl) | rfl <;> revert h <;> decide
      · exact h'
    · rintro rfl; revert h; decide
    · rintro rfl; revert h; decide

private theorem clamp (v : ℤ) (h1 : -2 ^ 63 ≤ v) (h2 : v ≤ 2 ^ 63 - 1) : max (-2 ^ 63) (min (2 ^ 63 - 1) v) = v := by
  rw [min_eq_right h2, max_eq_right h1]

/-- **C59**: a start iteration written in decimal is read exactly, provided it is less than 2^63; what follows the number is ignored. -/
theorem c59_iteration (n : ℕ) (hn : n < 2 ^ 63) (t : List Char) (ht : ∀ c, t.head? = some c → isDigit c = false) :
    strtol (decimal n ++ t) = n := by
  have hl := leading_decimal n t ht
  obtain ⟨c, l, e, h1, h2, h3⟩ := strtol_pre n t
  rw [e] at hl ⊢
  unfold strtol
  rw [List.dropWhile_cons, h1]
  simp only [Bool.false_eq_true, if_false, signedNumber, h2, h3, hl]
  exact clamp _ (by omega) (by omega)

example : strtol "1200".toList = 1200 := by decide

/-- **C59** (what is not checked): a negative number is accepted as start iteration. -/
theorem c59_negative_accepted (params prog : List Char) (p : List Char) (hp : YamlPath p) (n : ℕ) (hn : n < 2 ^ 63) :
    parseRestart params [prog, "--iter-restart".toList, '-' :: decimal n, p] = .returns p (-(n : ℤ)) := by
  have h : strtol ('-' :: decimal n) = -(n : ℤ) := by
    have h0 := leading_decimal n [] (by simp)
    rw [List.append_nil] at h0
    unfold strtol
    rw [List.dropWhile_cons, show isSpace '-' = false by decide]
    simp only [Bool.false_eq_true, if_false, signedNumber, h0, if_true]
    exact clamp _ (by omega) (by omega)
  exact (c59_returns _ _ _ _).2 ⟨hp, Or.inr ⟨prog, _, rfl, h.symm⟩⟩

/-- **C59** (what is not checked): if the argument of `--iter-restart` does not begin with a number, the program does not fail: it starts from
iteration 0. -/
theorem c59_not_a_number (params prog : List Char) (p : List Char) (hp : YamlPath p) (c : Char) (t : List Char)
    (h1 : isSpace c = false) (h2 : isDigit c = false) (h3 : c ≠ '-' ∧ c ≠ '+') :
    parseRestart params [prog, "--iter-restart".toList, c :: t, p] = .returns p 0 := by
  have h : strtol (c :: t) = 0 := by
    unfold strtol
    rw [List.dropWhile_cons, h1]
    have hl : leadingNumber (c :: t) = 0 := by simp [leadingNumber, h2]
    simp only [Bool.false_eq_true, if_false, signedNumber, h3.1, h3.2, hl]
    decide
  exact (c59_returns _ _ _ _).2 ⟨hp, Or.inr ⟨prog, _, rfl, h.symm⟩⟩

example : parseRestart [] ["prog".toList, "--iter-restart".toList, "last".toList, "conf.yaml".toList] =
    .returns "conf.yaml".toList 0 := by decide

end Verif.Input
