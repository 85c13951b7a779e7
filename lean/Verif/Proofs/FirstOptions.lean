import Verif.Props.Layout
/-
If the layout that takes every first option fits, then it is the greedy one.
-/
namespace PPP
variable {P : PrettyDoc}

theorem notNl_of_mem {l : List (Tok P)} {x : Tok P} (h : x ∈ l.takeWhile Tok.notNl) : x.notNl = true := by
  induction l with
  | nil => simp at h
  | cons y l ih =>
    rw [List.takeWhile_cons] at h
    split at h
    · rcases List.mem_cons.1 h with rfl | h
      · assumption
      · exact ih h
    · simp at h

theorem lineFits_of_lines {w : Nat} {T : List (Tok P)} (h1 : ∀ l ∈ linesOf T, segsWidth l ≤ w) (h2 : ¬ EolDefect T) :
    ∀ A B, T = A ++ B → LineFits w (lineAfter ⟨0, false⟩ A) B := by
  rintro A B rfl
  refine ⟨?_, ?_⟩
  · obtain ⟨line, g1, g2⟩ := line_at_split A B
    rw [← g2]
    exact h1 line (List.mem_of_getElem? g1)
  · rintro ⟨X, x, C, hX, h⟩
    have hB : ∃ D, B = X ++ .text x :: D ∧ ∀ ind, .nl ind ∉ X := by
      refine ⟨C ++ B.dropWhile Tok.notNl, ?_, ?_⟩
      · conv => lhs; rw [← List.takeWhile_append_dropWhile (p := Tok.notNl) (l := B)]
        have hX' : List.takeWhile Tok.notNl B = X ++ .text x :: C := hX
        rw [hX']
        simp
      · intro ind hi
        have : (.nl ind : Tok P) ∈ firstLine B := by rw [hX]; simp [hi]
        have := notNl_of_mem this
        simp [Tok.notNl] at this
    obtain ⟨D, rfl, hn⟩ := hB
    refine h2 ?_
    rcases h with h | h
    · rw [lineAfter_eol_iff] at h
      rcases h with h | ⟨h, _⟩
      · obtain ⟨U, V, hUV⟩ := List.append_of_mem h
        have hA : ∃ Y, A = Y ++ lastLine A := by
          refine ⟨(A.reverse.dropWhile Tok.notNl).reverse, ?_⟩
          unfold lastLine
          rw [← List.reverse_append, List.takeWhile_append_dropWhile, List.reverse_reverse]
        obtain ⟨Y, hY⟩ := hA
        refine ⟨Y ++ U, V ++ X, x, D, ?_, ?_⟩
        · rw [hY, hUV]; simp
        · intro ind hi
          rcases List.mem_append.1 hi with hi | hi
          · have : (.nl ind : Tok P) ∈ lastLine A := by rw [hUV]; simp [hi]
            unfold lastLine at this
            have := notNl_of_mem (List.mem_reverse.1 this)
            simp [Tok.notNl] at this
          · exact hn ind hi
      · simp at h
    · obtain ⟨U, V, rfl⟩ := List.append_of_mem h
      exact ⟨A ++ U, V, x, D, by simp, fun ind hi => hn ind (by simp [hi])⟩

theorem greedy_of_firsts {w : Nat} {id : P.Id} {t : NTree P} {T} (hr : Resolves id t T) :
    t.GoodChoices w → .second ∉ T → ∀ k st R,
      (∀ st, LineFits w st R → LineFits w st (k.flatMap NTree.seconds)) →
      (∀ B A, T = B ++ .first :: A → LineFits w (lineAfter st (erase B)) (erase A ++ R)) →
      Greedy w id t k st (lineAfter st (erase T)) T := by
  induction hr with
  | empty => intros; exact .empty
  | mark => intros; exact .mark
  | eol => intros; exact .eol
  | newline => intros; exact .newline
  | text => intros; exact .text
  | child _ ih => intro hc h2 k st R hk hf; exact .child (ih hc h2 k st R hk hf)
  | @concat id a b T U ha hb iha ihb =>
    intro hc h2 k st R hk hf
    have g1 := iha hc.1 (fun h => h2 (by simp [h])) (b :: k) st (erase U ++ R) (fun st' h => ?_) (fun B A hT => ?_)
    · have g2 := ihb hc.2 (fun h => h2 (by simp [h])) k (lineAfter st (erase T)) R hk (fun B A hU => by
        have := hf (T ++ B) A (by rw [hU]; simp)
        rwa [erase_append, lineAfter_append] at this)
      rw [erase_append, lineAfter_append]
      exact .concat g1 g2
    · exact seconds_best hb hc.2 (lineFits_replace h fun _ h' => hk _ h')
    · have := hf B (A ++ U) (by rw [hT]; simp)
      rwa [erase_append, List.append_assoc] at this
  | @choice_first id a b T ha ih =>
    intro hc h2 k st R hk hf
    refine .choice_first ?_ (ih hc.1 (fun h => h2 (by simp [h])) k st R hk fun B A hT => ?_)
    · have := hf [] T rfl
      exact seconds_best ha hc.1 (lineFits_replace this fun _ h' => hk _ h')
    · exact hf (.first :: B) A (by rw [hT]; rfl)
  | choice_second _ ih => intro _ h2; simp at h2

end PPP
