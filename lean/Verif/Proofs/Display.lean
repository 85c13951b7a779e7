import Verif.Model.Display
import Verif.Spec.Display
/-
Displayed notations can be read back.
-/
namespace PPP
variable {L C : Type}

/-! ### Numbers -/

theorem natChars (n : Nat) : (toString n).toList = Nat.toDigits 10 n := by
  simp [toString, Nat.repr]

theorem natChars_inj {m n : Nat} (h : Nat.toDigits 10 m = Nat.toDigits 10 n) : m = n := by
  have := congrArg (Nat.ofDigitChars 10 · 0) h
  simpa using this

theorem natChars_digit {n : Nat} {c : Char} (h : c ∈ Nat.toDigits 10 n) : c.isDigit = true :=
  Nat.isDigit_of_mem_toDigits (by decide) (by decide) h

/-- The characters of an `isize`. -/
def intChars (i : Int) : List Char := (toString i).toList

theorem intChars_nat (n : Nat) : intChars (n : Int) = Nat.toDigits 10 n := by
  simp [intChars, toString, Int.repr, Nat.repr]

theorem intChars_neg (n : Nat) : intChars (Int.negSucc n) = '-' :: Nat.toDigits 10 (n + 1) := by
  simp [intChars, toString, Int.repr, Nat.repr]

def numChar (c : Char) : Bool := c.isDigit || c == '-'

theorem intChars_numChar {i : Int} {c : Char} (h : c ∈ intChars i) : numChar c = true := by
  cases i with
  | ofNat n =>
    have h : c ∈ Nat.toDigits 10 n := by simpa [intChars_nat] using h
    simp [numChar, natChars_digit h]
  | negSucc n =>
    rw [intChars_neg] at h
    rcases List.mem_cons.1 h with h | h
    · subst h; rfl
    · simp [numChar, natChars_digit h]

theorem intChars_inj {i j : Int} (h : intChars i = intChars j) : i = j := by
  have neg : ∀ (m n : Nat), intChars (m : Int) = intChars (Int.negSucc n) → False := by
    intro m n h
    rw [intChars_nat, intChars_neg] at h
    have : '-' ∈ Nat.toDigits 10 m := by rw [h]; exact List.mem_cons_self ..
    have := natChars_digit this
    revert this; decide
  cases i with
  | ofNat m =>
    cases j with
    | ofNat n =>
      have h : intChars (m : Int) = intChars (n : Int) := h
      rw [intChars_nat, intChars_nat] at h
      rw [natChars_inj h]
    | negSucc n => exact (neg _ _ h).elim
  | negSucc m =>
    cases j with
    | ofNat n => exact (neg _ _ h.symm).elim
    | negSucc n =>
      rw [intChars_neg, intChars_neg] at h
      have := natChars_inj (List.cons.inj h).2
      have : m = n := by omega
      rw [this]

/-- Two strings of characters of one kind, followed by something of another kind (or nothing). -/
theorem span_inj {p : Char → Bool} {a b r r' : List Char} (ha : ∀ c ∈ a, p c = true)
    (hb : ∀ c ∈ b, p c = true) (hr : ∀ c t, r = c :: t → p c = false) (hr' : ∀ c t, r' = c :: t → p c = false)
    (h : a ++ r = b ++ r') : a = b ∧ r = r' := by
  induction a generalizing b with
  | nil =>
    cases b with
    | nil => exact ⟨rfl, h⟩
    | cons c b =>
      have := hr c _ (by simpa using h)
      rw [hb c (List.mem_cons_self ..)] at this
      cases this
  | cons c a ih =>
    cases b with
    | nil =>
      have := hr' c _ (by simpa using h.symm)
      rw [ha c (List.mem_cons_self ..)] at this
      cases this
    | cons d b =>
      simp only [List.cons_append, List.cons.injEq] at h
      obtain ⟨e, h⟩ := h
      obtain ⟨e', hr⟩ := ih (fun c hc => ha c (List.mem_cons_of_mem _ hc))
        (fun c hc => hb c (List.mem_cons_of_mem _ hc)) h
      exact ⟨by rw [e, e'], hr⟩

/-! ### The characters of a notation -/

/-- The characters of the `Debug` of a position. -/
def CheckPos.chars (p : CheckPos) : List Char := p.debug.toList

/-- What ends the part of a sequence: the end of everything, a space, a comma, or a closing parenthesis. -/
def Delim (r : List Char) : Prop := ∀ c t, r = c :: t → c = ' ' ∨ c = ',' ∨ c = ')'

/-- What ends a sequence. -/
def Ends' (r : List Char) : Prop := Delim r ∧ ∀ t, r ≠ ' ' :: '+' :: t

theorem Delim.num {r : List Char} (h : Delim r) (c t) (e : r = c :: t) : numChar c = false := by
  rcases h c t e with rfl | rfl | rfl <;> decide

theorem int_decode {i j : Int} {r r' : List Char} (hr : Delim r) (hr' : Delim r')
    (h : intChars i ++ r = intChars j ++ r') : i = j ∧ r = r' := by
  obtain ⟨e, h⟩ := span_inj (p := numChar) (fun c hc => intChars_numChar hc) (fun c hc => intChars_numChar hc)
    hr.num hr'.num h
  exact ⟨intChars_inj e, h⟩

theorem intChars_ne_nil (i : Int) : intChars i ≠ [] := by
  cases i with
  | ofNat n =>
    have : intChars (n : Int) ≠ [] := by rw [intChars_nat]; exact Nat.toDigits_ne_nil
    exact this
  | negSucc n => rw [intChars_neg]; simp


theorem int_head {i : Int} {c : Char} {r t : List Char} (hc : numChar c = false)
    (h : intChars i ++ r = c :: t) : False := by
  cases hi : intChars i with
  | nil => exact intChars_ne_nil i hi
  | cons d l =>
    have hd : numChar d = true := intChars_numChar (i := i) (by rw [hi]; exact List.mem_cons_self ..)
    rw [hi] at h
    have : d = c := by simpa using congrArg List.head? h
    rw [this, hc] at hd
    cases hd

theorem quote_decode {s s' : String} {r r' : List Char} (hs : '\'' ∉ s.toList) (hs' : '\'' ∉ s'.toList)
    (h : s.toList ++ '\'' :: r = s'.toList ++ '\'' :: r') : s = s' ∧ r = r' := by
  obtain ⟨e, h⟩ := span_inj (p := fun c => c != '\'') (a := s.toList) (b := s'.toList)
    (fun c hc => by have : c ≠ '\'' := fun e => hs (e ▸ hc)
                    simpa using this)
    (fun c hc => by have : c ≠ '\'' := fun e => hs' (e ▸ hc)
                    simpa using this)
    (fun c t e => by cases e; rfl) (fun c t e => by cases e; rfl) h
  exact ⟨String.toList_inj.1 e, (List.cons.inj h).2⟩

theorem pos_decode {p p' : CheckPos} {r r' : List Char}
    (h : p.chars ++ ' ' :: r = p'.chars ++ ' ' :: r') : p = p' ∧ r = r' := by
  cases p <;> cases p' <;> simp [CheckPos.chars, CheckPos.debug] at h
  · exact ⟨rfl, h⟩
  · rename_i i j
    obtain ⟨e, h⟩ := int_decode (i := i) (j := j) (r := ')' :: ' ' :: r) (r' := ')' :: ' ' :: r')
      (fun c t e => by cases e; simp) (fun c t e => by cases e; simp) h
    exact ⟨by rw [e], by simpa using h⟩
  · exact ⟨rfl, h⟩
  · exact ⟨rfl, h⟩

variable {showL : L → String} {showC : C → String}

section
variable (showL showC)

/-- The characters of a displayed notation. -/
def Notation.chars (n : Notation L C) : List Char := (n.display showL showC).toList

local notation "ch" => Notation.chars showL showC

theorem chars_empty : ch .empty = ['ε'] := by simp [Notation.chars, Notation.display]
theorem chars_newline : ch .newline = ['↵'] := by
  have h : Notation.display showL showC .newline = "↵" := by simp only [Notation.display]
  have e : "↵".toList = ['↵'] := by simp
  unfold Notation.chars
  rw [h, e]
theorem chars_endOfLine : ch .endOfLine = ['E', 'O', 'L'] := by simp [Notation.chars, Notation.display]
theorem chars_focusMark : ch .focusMark = ['M', 'A', 'R', 'K'] := by simp [Notation.chars, Notation.display]
theorem chars_text : ch .text = ['T', 'E', 'X', 'T'] := by simp [Notation.chars, Notation.display]
theorem chars_left : ch .left = ['$', 'L', 'e', 'f', 't'] := by simp [Notation.chars, Notation.display]
theorem chars_right : ch .right = ['$', 'R', 'i', 'g', 'h', 't'] := by simp [Notation.chars, Notation.display]
theorem chars_literal (s) : ch (.literal s) = '\'' :: (s.toList ++ ['\'']) := by
  simp [Notation.chars, Notation.display]
theorem chars_flat (a) : ch (.flat a) = 'F' :: 'l' :: 'a' :: 't' :: '(' :: (ch a ++ [')']) := by
  simp [Notation.chars, Notation.display]
theorem chars_indent (s l a) : ch (.indent s l a) =
    '\'' :: (s.toList ++ '\'' :: '⇒' :: '(' :: (ch a ++ [')'])) := by
  simp [Notation.chars, Notation.display]
theorem chars_concat (a b) : ch (.concat a b) = ch a ++ ' ' :: '+' :: ' ' :: ch b := by
  simp [Notation.chars, Notation.display]
theorem chars_choice (a b) : ch (.choice a b) = '(' :: (ch a ++ ' ' :: '|' :: ' ' :: (ch b ++ [')'])) := by
  simp [Notation.chars, Notation.display]
theorem chars_check (c p a b) : ch (.check c p a b) =
    '(' :: ((showC c).toList ++ '@' :: (p.chars ++ ' ' :: '?' :: ' ' ::
      (ch a ++ ' ' :: '|' :: ' ' :: (ch b ++ [')'])))) := by
  simp [Notation.chars, Notation.display, CheckPos.chars]
theorem chars_child (i) : ch (.child i) = '$' :: intChars i := by
  simp [Notation.chars, Notation.display, intChars]
theorem chars_style (l a) : ch (.style l a) =
    'S' :: 't' :: 'y' :: 'l' :: 'e' :: '(' :: ((showL l).toList ++ ',' :: ' ' :: (ch a ++ [')'])) := by
  simp [Notation.chars, Notation.display]
theorem chars_count (z o m) : ch (.count z o m) =
    'C' :: 'o' :: 'u' :: 'n' :: 't' :: '(' :: 'z' :: 'e' :: 'r' :: 'o' :: '=' :: (ch z ++
      ',' :: ' ' :: 'o' :: 'n' :: 'e' :: '=' :: (ch o ++
      ',' :: ' ' :: 'm' :: 'a' :: 'n' :: 'y' :: '=' :: (ch m ++ [')']))) := by
  simp [Notation.chars, Notation.display]
theorem chars_fold (f j) : ch (.fold f j) =
    'F' :: 'o' :: 'l' :: 'd' :: '(' :: 'f' :: 'i' :: 'r' :: 's' :: 't' :: '=' :: (ch f ++
      ',' :: ' ' :: 'j' :: 'o' :: 'i' :: 'n' :: '=' :: (ch j ++ [')'])) := by
  simp [Notation.chars, Notation.display]

end

theorem cond_decode (hr : Readable showL showC) {c c' : C} {r r' : List Char}
    (h : (showC c).toList ++ '@' :: r = (showC c').toList ++ '@' :: r') : c = c' ∧ r = r' := by
  obtain ⟨e, h⟩ := span_inj (p := fun c => c != '@') (a := (showC c).toList) (b := (showC c').toList)
    (fun x hx => by simpa using (hr.name c x hx).2.2.2) (fun x hx => by simpa using (hr.name c' x hx).2.2.2)
    (fun c t e => by cases e; rfl) (fun c t e => by cases e; rfl) h
  exact ⟨hr.cond _ _ (String.toList_inj.1 e), (List.cons.inj h).2⟩

theorem label_decode (hr : Readable showL showC) {l l' : L} {r r' : List Char}
    (h : (showL l).toList ++ ',' :: ' ' :: r = (showL l').toList ++ ',' :: ' ' :: r') : l = l' ∧ r = r' := by
  obtain ⟨e, h⟩ := hr.label l l' (String.ofList r) (String.ofList r') (by
    apply String.toList_inj.1
    simpa using h)
  exact ⟨e, by simpa using congrArg String.toList h⟩

/-- The first character of a displayed notation, followed by a space, that can not be part of the name of a
    condition, is not an `@`. -/
theorem name_ends (a : Notation L C) (t : List Char) : ∃ pre c post,
    Notation.chars showL showC a ++ ' ' :: t = pre ++ c :: post ∧
    (∀ x ∈ pre, x ≠ ' ' ∧ x ≠ '\'' ∧ x ≠ '(' ∧ x ≠ '@') ∧ (c = ' ' ∨ c = '\'' ∨ c = '(') := by
  induction a generalizing t with
  | empty => exact ⟨['ε'], ' ', t, by simp [chars_empty], by decide, .inl rfl⟩
  | newline => exact ⟨['↵'], ' ', t, by simp [chars_newline], by decide, .inl rfl⟩
  | endOfLine => exact ⟨['E', 'O', 'L'], ' ', t, by simp [chars_endOfLine], by decide, .inl rfl⟩
  | focusMark => exact ⟨['M', 'A', 'R', 'K'], ' ', t, by simp [chars_focusMark], by decide, .inl rfl⟩
  | text => exact ⟨['T', 'E', 'X', 'T'], ' ', t, by simp [chars_text], by decide, .inl rfl⟩
  | left => exact ⟨['$', 'L', 'e', 'f', 't'], ' ', t, by simp [chars_left], by decide, .inl rfl⟩
  | right => exact ⟨['$', 'R', 'i', 'g', 'h', 't'], ' ', t, by simp [chars_right], by decide, .inl rfl⟩
  | literal s => exact ⟨[], '\'', _, by rw [chars_literal]; rfl, by simp, .inr (.inl rfl)⟩
  | indent s l a => exact ⟨[], '\'', _, by rw [chars_indent]; rfl, by simp, .inr (.inl rfl)⟩
  | choice a b => exact ⟨[], '(', _, by rw [chars_choice]; rfl, by simp, .inr (.inr rfl)⟩
  | check c p a b => exact ⟨[], '(', _, by rw [chars_check]; rfl, by simp, .inr (.inr rfl)⟩
  | flat a => exact ⟨['F', 'l', 'a', 't'], '(', _, by rw [chars_flat]; rfl, by decide, .inr (.inr rfl)⟩
  | style l a => exact ⟨['S', 't', 'y', 'l', 'e'], '(', _, by rw [chars_style]; rfl, by decide, .inr (.inr rfl)⟩
  | count z o m => exact ⟨['C', 'o', 'u', 'n', 't'], '(', _, by rw [chars_count]; rfl, by decide, .inr (.inr rfl)⟩
  | fold f j => exact ⟨['F', 'o', 'l', 'd'], '(', _, by rw [chars_fold]; rfl, by decide, .inr (.inr rfl)⟩
  | child i =>
    refine ⟨'$' :: intChars i, ' ', t, by rw [chars_child], ?_, .inl rfl⟩
    intro x hx
    rcases List.mem_cons.1 hx with rfl | hx
    · decide
    · have := intChars_numChar hx
      refine ⟨?_, ?_, ?_, ?_⟩ <;> (rintro rfl; revert this; decide)
  | concat a b iha _ =>
    obtain ⟨pre, c, post, e, h⟩ := iha ('+' :: ' ' :: (Notation.chars showL showC b ++ ' ' :: t))
    exact ⟨pre, c, post, by rw [← e, chars_concat]; simp, h⟩

/-- A choice does not look like a check. -/
theorem check_ne_choice (hr : Readable showL showC) {c : C} {a : Notation L C} {r t : List Char}
    (h : (showC c).toList ++ '@' :: r = Notation.chars showL showC a ++ ' ' :: t) : False := by
  obtain ⟨pre, d, post, e, hp, hd⟩ := name_ends (showL := showL) (showC := showC) a t
  rw [e] at h
  let p : Char → Bool := fun x => x != ' ' && x != '\'' && x != '(' && x != '@'
  obtain ⟨_, h⟩ := span_inj (p := p) (a := (showC c).toList) (b := pre)
    (fun x hx => by simpa [p, and_assoc] using hr.name c x hx)
    (fun x hx => by simpa [p, and_assoc] using hp x hx)
    (fun c t e => by cases e; rfl) (fun c t e => by cases e; rcases hd with rfl | rfl | rfl <;> rfl) h
  have := (List.cons.inj h).1
  subst this
  rcases hd with h | h | h <;> revert h <;> decide

/-! ### The canonical form -/

def Notation.isConcat : Notation L C → Bool
  | .concat _ _ => true
  | _ => false

/-- Concatenations are grouped to the right, and indentation has no style. -/
def Notation.Canonical : Notation L C → Prop
  | .flat a => a.Canonical
  | .indent _ l a => l = none ∧ a.Canonical
  | .concat a b => a.isConcat = false ∧ a.Canonical ∧ b.Canonical
  | .choice a b => a.Canonical ∧ b.Canonical
  | .check _ _ a b => a.Canonical ∧ b.Canonical
  | .style _ a => a.Canonical
  | .count z o m => z.Canonical ∧ o.Canonical ∧ m.Canonical
  | .fold f j => f.Canonical ∧ j.Canonical
  | _ => True

/-- `a + b`, grouped to the right if `a` and `b` are. -/
def Notation.joinR : Notation L C → Notation L C → Notation L C
  | .concat a b, z => .concat a (b.joinR z)
  | .empty, z => .concat .empty z
  | .newline, z => .concat .newline z
  | .endOfLine, z => .concat .endOfLine z
  | .literal s, z => .concat (.literal s) z
  | .text, z => .concat .text z
  | .flat a, z => .concat (.flat a) z
  | .indent s l a, z => .concat (.indent s l a) z
  | .choice a b, z => .concat (.choice a b) z
  | .check c p a b, z => .concat (.check c p a b) z
  | .child i, z => .concat (.child i) z
  | .style l a, z => .concat (.style l a) z
  | .focusMark, z => .concat .focusMark z
  | .count a b c, z => .concat (.count a b c) z
  | .fold a b, z => .concat (.fold a b) z
  | .left, z => .concat .left z
  | .right, z => .concat .right z

/-- The canonical form of a notation. -/
def Notation.canon : Notation L C → Notation L C
  | .flat a => .flat a.canon
  | .indent s _ a => .indent s none a.canon
  | .concat a b => a.canon.joinR b.canon
  | .choice a b => .choice a.canon b.canon
  | .check c p a b => .check c p a.canon b.canon
  | .style l a => .style l a.canon
  | .count z o m => .count z.canon o.canon m.canon
  | .fold f j => .fold f.canon j.canon
  | .empty => .empty
  | .newline => .newline
  | .endOfLine => .endOfLine
  | .literal s => .literal s
  | .text => .text
  | .child i => .child i
  | .focusMark => .focusMark
  | .left => .left
  | .right => .right

theorem joinR_regroups (a z : Notation L C) : (a.concat z).Regroups (a.joinR z) := by
  induction a with
  | concat a b _ ihb => exact .trans (.assoc a b z) (.concat (.refl _) ihb)
  | _ => exact .refl _

theorem canon_regroups (a : Notation L C) : a.Regroups a.canon := by
  induction a with
  | concat a b iha ihb => exact .trans (.concat iha ihb) (joinR_regroups _ _)
  | flat a ih => exact .flat ih
  | indent s l a ih => exact .indent s l none ih
  | choice a b iha ihb => exact .choice iha ihb
  | check c p a b iha ihb => exact .check c p iha ihb
  | style l a ih => exact .style l ih
  | count z o m h1 h2 h3 => exact .count h1 h2 h3
  | fold f j h1 h2 => exact .fold h1 h2
  | _ => exact .refl _

theorem joinR_canonical {a z : Notation L C} (ha : a.Canonical) (hz : z.Canonical) :
    (a.joinR z).Canonical := by
  induction a with
  | concat a b _ ihb => exact ⟨ha.1, ha.2.1, ihb ha.2.2⟩
  | _ => exact ⟨rfl, ha, hz⟩

theorem canon_canonical (a : Notation L C) : a.canon.Canonical := by
  induction a with
  | concat a b iha ihb => exact joinR_canonical iha ihb
  | flat a ih => exact ih
  | indent s l a ih => exact ⟨rfl, ih⟩
  | choice a b iha ihb => exact ⟨iha, ihb⟩
  | check c p a b iha ihb => exact ⟨iha, ihb⟩
  | style l a ih => exact ih
  | count z o m h1 h2 h3 => exact ⟨h1, h2, h3⟩
  | fold f j h1 h2 => exact ⟨h1, h2⟩
  | _ => trivial

theorem joinR_strings {p} {a z : Notation L C} : (a.joinR z).Strings p ↔ a.Strings p ∧ z.Strings p := by
  induction a with
  | concat a b _ ihb => simp only [Notation.joinR, Notation.Strings, ihb, and_assoc]
  | _ => rfl

theorem canon_strings {p} (a : Notation L C) : a.canon.Strings p ↔ a.Strings p := by
  induction a with
  | concat a b iha ihb => simp only [Notation.canon, joinR_strings, iha, ihb, Notation.Strings]
  | flat a ih => exact ih
  | indent s l a ih => simp only [Notation.canon, Notation.Strings, ih]
  | choice a b iha ihb => simp only [Notation.canon, Notation.Strings, iha, ihb]
  | check c p a b iha ihb => simp only [Notation.canon, Notation.Strings, iha, ihb]
  | style l a ih => exact ih
  | count z o m h1 h2 h3 => simp only [Notation.canon, Notation.Strings, h1, h2, h3]
  | fold f j h1 h2 => simp only [Notation.canon, Notation.Strings, h1, h2]
  | _ => rfl

theorem regroups_display {a b : Notation L C} (h : a.Regroups b) :
    a.display showL showC = b.display showL showC := by
  induction h with
  | refl a => rfl
  | symm _ ih => exact ih.symm
  | trans _ _ h1 h2 => exact h1.trans h2
  | assoc a b c => 
    show (a.display showL showC ++ " + " ++ b.display showL showC) ++ " + " ++ c.display showL showC =
      a.display showL showC ++ " + " ++ (b.display showL showC ++ " + " ++ c.display showL showC)
    simp only [String.append_assoc]
  | concat _ _ h1 h2 =>
    rename_i a a' b b' _ _
    show a.display showL showC ++ " + " ++ b.display showL showC =
      a'.display showL showC ++ " + " ++ b'.display showL showC
    rw [h1, h2]
  | _ => simp only [Notation.display, *]

/-! ### Reading back -/

def Notation.ReadsAtom (showL : L → String) (showC : C → String) (a : Notation L C) : Prop :=
  ∀ (b : Notation L C) (r r' : List Char), b.isConcat = false → b.Canonical → b.Quoteless → Delim r → Delim r' →
    a.chars showL showC ++ r = b.chars showL showC ++ r' → a = b ∧ r = r'

def Notation.Reads (showL : L → String) (showC : C → String) (a : Notation L C) : Prop :=
  ∀ (b : Notation L C) (r r' : List Char), b.Canonical → b.Quoteless → Ends' r → Ends' r' →
    a.chars showL showC ++ r = b.chars showL showC ++ r' → a = b ∧ r = r'

theorem delim_plus (t : List Char) : Delim (' ' :: '+' :: t) := by
  intro c t e; cases e; simp

theorem reads_of_atom {a : Notation L C} (h : a.ReadsAtom showL showC) : a.Reads showL showC := by
  intro b r r' hb hq hr hr' e
  cases hc : b.isConcat with
  | false => exact h b r r' hc hb hq hr.1 hr'.1 e
  | true =>
    cases b <;> cases hc
    rename_i x y
    rw [chars_concat, List.append_assoc] at e
    obtain ⟨_, e⟩ := h x r _ hb.1 hb.2.1 hq.1 hr.1 (delim_plus _) e
    exact (hr.2 _ e).elim

theorem ends_paren (t : List Char) : Ends' (')' :: t) :=
  ⟨fun c t e => by cases e; simp, fun t e => by cases e⟩
theorem ends_comma (t : List Char) : Ends' (',' :: t) :=
  ⟨fun c t e => by cases e; simp, fun t e => by cases e⟩
theorem ends_bar (t : List Char) : Ends' (' ' :: '|' :: t) :=
  ⟨fun c t e => by cases e; simp, fun t e => by cases e⟩


/-- Look at the first characters. -/
local macro "read_chars" h:ident : tactic => `(tactic| simp [chars_empty, chars_newline, chars_endOfLine,
  chars_focusMark, chars_text, chars_left, chars_right, chars_literal, chars_flat, chars_indent, chars_choice,
  chars_check, chars_child, chars_style, chars_count, chars_fold] at $h:ident)

theorem reads (hr : Readable showL showC) (a : Notation L C) (ha : a.Canonical) (hq : a.Quoteless) :
    (a.isConcat = false → a.ReadsAtom showL showC) ∧ a.Reads showL showC := by
  have atom : ∀ {a : Notation L C}, a.ReadsAtom showL showC →
      (a.isConcat = false → a.ReadsAtom showL showC) ∧ a.Reads showL showC :=
    fun h => ⟨fun _ => h, reads_of_atom h⟩
  induction a with
  | empty =>
    refine atom fun b r r' hb hcb hqb hd hd' e => ?_
    cases b <;> cases hb <;> read_chars e
    exact ⟨rfl, e⟩
  | newline =>
    refine atom fun b r r' hb hcb hqb hd hd' e => ?_
    cases b <;> cases hb <;> read_chars e
    exact ⟨rfl, e⟩
  | endOfLine =>
    refine atom fun b r r' hb hcb hqb hd hd' e => ?_
    cases b <;> cases hb <;> read_chars e
    exact ⟨rfl, e⟩
  | focusMark =>
    refine atom fun b r r' hb hcb hqb hd hd' e => ?_
    cases b <;> cases hb <;> read_chars e
    exact ⟨rfl, e⟩
  | text =>
    refine atom fun b r r' hb hcb hqb hd hd' e => ?_
    cases b <;> cases hb <;> read_chars e
    exact ⟨rfl, e⟩
  | left =>
    refine atom fun b r r' hb hcb hqb hd hd' e => ?_
    cases b <;> cases hb <;> read_chars e
    · exact (int_head (by decide) e.symm).elim
    · exact ⟨rfl, e⟩
  | right =>
    refine atom fun b r r' hb hcb hqb hd hd' e => ?_
    cases b <;> cases hb <;> read_chars e
    · exact (int_head (by decide) e.symm).elim
    · exact ⟨rfl, e⟩
  | child i =>
    refine atom fun b r r' hb hcb hqb hd hd' e => ?_
    cases b <;> cases hb <;> read_chars e
    · obtain ⟨e, h⟩ := int_decode hd hd' e
      exact ⟨by rw [e], h⟩
    · exact (int_head (by decide) e).elim
    · exact (int_head (by decide) e).elim
  | literal s =>
    refine atom fun b r r' hb hcb hqb hd hd' e => ?_
    cases b <;> cases hb <;> read_chars e
    · obtain ⟨e, h⟩ := quote_decode hq hqb e
      exact ⟨by rw [e], h⟩
    · obtain ⟨_, h⟩ := quote_decode hq hqb.1 e
      rcases hd _ _ h with h | h | h <;> simp at h
  | indent s l a ih =>
    refine atom fun b r r' hb hcb hqb hd hd' e => ?_
    cases b <;> cases hb <;> read_chars e
    · obtain ⟨_, h⟩ := quote_decode hq.1 hqb e
      rcases hd' _ _ h.symm with h | h | h <;> simp at h
    · obtain ⟨e, h⟩ := quote_decode hq.1 hqb.1 e
      simp only [List.cons.injEq, true_and] at h
      obtain ⟨e', h⟩ := (ih ha.2 hq.2).2 _ _ _ hcb.2 hqb.2 (ends_paren _) (ends_paren _) h
      exact ⟨by rw [e, e', ha.1, hcb.1], by simpa using h⟩
  | flat a ih =>
    refine atom fun b r r' hb hcb hqb hd hd' e => ?_
    cases b <;> cases hb <;> read_chars e
    rename_i n
    obtain ⟨e', h⟩ := (ih ha hq).2 n _ _ hcb hqb (ends_paren _) (ends_paren _) e
    exact ⟨by rw [e'], by simpa using h⟩
  | style l a ih =>
    refine atom fun b r r' hb hcb hqb hd hd' e => ?_
    cases b <;> cases hb <;> read_chars e
    rename_i n
    obtain ⟨e, h⟩ := label_decode hr e
    obtain ⟨e', h⟩ := (ih ha hq).2 n _ _ hcb hqb (ends_paren _) (ends_paren _) h
    exact ⟨by rw [e, e'], by simpa using h⟩
  | choice a b iha ihb =>
    refine atom fun b r r' hb hcb hqb hd hd' e => ?_
    cases b <;> cases hb <;> read_chars e
    · obtain ⟨e, h⟩ := (iha ha.1 hq.1).2 _ _ _ hcb.1 hqb.1 (ends_bar _) (ends_bar _) e
      simp only [List.cons.injEq, true_and] at h
      obtain ⟨e', h⟩ := (ihb ha.2 hq.2).2 _ _ _ hcb.2 hqb.2 (ends_paren _) (ends_paren _) h
      exact ⟨by rw [e, e'], by simpa using h⟩
    · exact (check_ne_choice hr e.symm).elim
  | check c p a b iha ihb =>
    refine atom fun b r r' hb hcb hqb hd hd' e => ?_
    cases b <;> cases hb <;> read_chars e
    · exact (check_ne_choice hr e).elim
    · obtain ⟨ec, h⟩ := cond_decode hr e
      obtain ⟨ep, h⟩ := pos_decode h
      simp only [List.cons.injEq, true_and] at h
      obtain ⟨e, h⟩ := (iha ha.1 hq.1).2 _ _ _ hcb.1 hqb.1 (ends_bar _) (ends_bar _) h
      simp only [List.cons.injEq, true_and] at h
      obtain ⟨e', h⟩ := (ihb ha.2 hq.2).2 _ _ _ hcb.2 hqb.2 (ends_paren _) (ends_paren _) h
      exact ⟨by rw [ec, ep, e, e'], by simpa using h⟩
  | count z o m ihz iho ihm =>
    refine atom fun b r r' hb hcb hqb hd hd' e => ?_
    cases b <;> cases hb <;> read_chars e
    obtain ⟨e1, h⟩ := (ihz ha.1 hq.1).2 _ _ _ hcb.1 hqb.1 (ends_comma _) (ends_comma _) e
    simp only [List.cons.injEq, true_and] at h
    obtain ⟨e2, h⟩ := (iho ha.2.1 hq.2.1).2 _ _ _ hcb.2.1 hqb.2.1 (ends_comma _) (ends_comma _) h
    simp only [List.cons.injEq, true_and] at h
    obtain ⟨e3, h⟩ := (ihm ha.2.2 hq.2.2).2 _ _ _ hcb.2.2 hqb.2.2 (ends_paren _) (ends_paren _) h
    exact ⟨by rw [e1, e2, e3], by simpa using h⟩
  | fold f j ihf ihj =>
    refine atom fun b r r' hb hcb hqb hd hd' e => ?_
    cases b <;> cases hb <;> read_chars e
    obtain ⟨e1, h⟩ := (ihf ha.1 hq.1).2 _ _ _ hcb.1 hqb.1 (ends_comma _) (ends_comma _) e
    simp only [List.cons.injEq, true_and] at h
    obtain ⟨e2, h⟩ := (ihj ha.2 hq.2).2 _ _ _ hcb.2 hqb.2 (ends_paren _) (ends_paren _) h
    exact ⟨by rw [e1, e2], by simpa using h⟩
  | concat x y ihx ihy =>
    refine ⟨fun h => (nomatch h), fun b r r' hcb hqb hd hd' e => ?_⟩
    have hx := (ihx ha.2.1 hq.1).1 ha.1
    rw [chars_concat, List.append_assoc] at e
    cases hc : b.isConcat with
    | false =>
      obtain ⟨_, h⟩ := hx b _ r' hc hcb hqb (delim_plus _) hd'.1 e
      exact (hd'.2 _ h.symm).elim
    | true =>
      cases b <;> cases hc
      rename_i x' y'
      rw [chars_concat, List.append_assoc] at e
      obtain ⟨e1, h⟩ := hx x' _ _ hcb.1 hcb.2.1 hqb.1 (delim_plus _) (delim_plus _) e
      have h := (List.cons.inj (List.cons.inj (List.cons.inj h).2).2).2
      obtain ⟨e2, h⟩ := (ihy ha.2.2 hq.2).2 y' r r' hcb.2.2 hqb.2 hd hd' h
      exact ⟨by rw [e1, e2], h⟩

theorem ends_nil : Ends' [] := ⟨fun c t e => (by cases e), fun t e => (by cases e)⟩

/-- Notations that are displayed the same have the same canonical form. -/
theorem canon_eq (hr : Readable showL showC) {a b : Notation L C} (ha : a.Quoteless) (hb : b.Quoteless)
    (h : a.display showL showC = b.display showL showC) : a.canon = b.canon := by
  rw [regroups_display (canon_regroups a), regroups_display (canon_regroups b)] at h
  exact ((reads hr a.canon (canon_canonical a) ((canon_strings a).2 ha)).2 b.canon [] [] (canon_canonical b)
    ((canon_strings b).2 hb) ends_nil ends_nil (by rw [Notation.chars, Notation.chars, h])).1

end PPP
