import Verif.Spec.Csv

/-!
# Lemmas on delimited texts
-/

namespace Verif.Csv

open Verif

variable {delim : Char}

/-- A step within a line. -/
theorem rows_step {r r' : Reader} {c : Char} (fresh : Bool) (s : Str) (h : step delim r (some c) = some r') (hc : c ≠ '\n') :
    rows delim r fresh (c :: s) = rows delim r' false s := by
  rw [rows]
  simp only [h]
  rw [if_neg hc]

theorem start_step {r : Reader} (hr : r.st = .startField ∨ r.st = .startRecord) {c : Char} (h1 : c ≠ '\n') (h2 : c ≠ '\r') :
    step delim r (some c) = some (startField delim r (some c)) := by
  rcases hr with h | h
  · simp only [step, h]
  · simp only [step, h]
    rw [if_neg (by rintro (e | e); exact h1 e; exact h2 e)]

theorem rows_spaces (n : Nat) : ∀ (r : Reader) (fresh : Bool) (s : Str), (r.st = .startField ∨ r.st = .startRecord) →
    rows delim r fresh (List.replicate (n + 1) ' ' ++ s) = rows delim { r with st := .startField } false s := by
  induction n with
  | zero =>
    intro r fresh s hr
    rw [show List.replicate (0 + 1) ' ' ++ s = ' ' :: s from rfl]
    rw [rows_step (r' := { r with st := .startField }) fresh s _ (by decide)]
    rw [start_step hr (by decide) (by decide)]
    rfl
  | succ n ih =>
    intro r fresh s hr
    rw [show List.replicate (n + 1 + 1) ' ' ++ s = ' ' :: (List.replicate (n + 1) ' ' ++ s) from rfl]
    rw [rows_step (r' := { r with st := .startField }) fresh _ _ (by decide)]
    · exact ih _ _ s (.inl rfl)
    · rw [start_step hr (by decide) (by decide)]
      rfl

theorem rows_plain (hd : IsDelim delim) (p : Str) : ∀ (f : Str) (fs : List Str) (s : Str), (∀ c ∈ p, c ≠ delim ∧ c ≠ '\n' ∧ c ≠ '\r') →
    rows delim ⟨.inField, f, fs⟩ false (p ++ s) = rows delim ⟨.inField, f ++ p, fs⟩ false s := by
  induction p with
  | nil => intro f fs s _; simp
  | cons c p ih =>
    intro f fs s h
    obtain ⟨h1, h2, h3⟩ := h c (List.mem_cons_self ..)
    rw [List.cons_append, rows_step (r' := ⟨.inField, f ++ [c], fs⟩) false _ _ h2]
    · rw [ih (f ++ [c]) fs s fun c' hc' => h c' (List.mem_cons_of_mem _ hc')]
      simp
    · simp only [step]
      rw [if_neg (by rintro (e | e); exact h2 e; exact h3 e), if_neg h1]
      rfl

theorem rows_quoted (p : Str) : ∀ (f : Str) (fs : List Str) (fresh : Bool) (s : Str),
    rows delim ⟨.inQuoted, f, fs⟩ fresh (doubled p ++ '"' :: s) = rows delim ⟨.quoteInQuoted, f ++ p, fs⟩ false s := by
  induction p with
  | nil =>
    intro f fs fresh s
    rw [show doubled [] ++ '"' :: s = '"' :: s from rfl, rows_step (r' := ⟨.quoteInQuoted, f, fs⟩) fresh s rfl (by decide)]
    simp
  | cons c p ih =>
    intro f fs fresh s
    by_cases hq : c = '"'
    · subst hq
      rw [show doubled ('"' :: p) ++ '"' :: s = '"' :: '"' :: (doubled p ++ '"' :: s) from rfl]
      rw [rows_step (r' := ⟨.quoteInQuoted, f, fs⟩) fresh _ rfl (by decide),
        rows_step (r' := ⟨.inQuoted, f ++ ['"'], fs⟩) false _ rfl (by decide), ih]
      simp
    · have hdbl : doubled (c :: p) ++ '"' :: s = c :: (doubled p ++ '"' :: s) := by
        simp [doubled, hq]
      have hst : step delim ⟨.inQuoted, f, fs⟩ (some c) = some ⟨.inQuoted, f ++ [c], fs⟩ := by
        simp only [step]
        rw [if_neg hq]
        rfl
      rw [hdbl]
      by_cases hn : c = '\n'
      · rw [rows]
        simp only [hst]
        rw [if_pos hn]
        simp only [step]
        rw [if_neg (by decide), ih]
        simp
      · rw [rows_step fresh _ hst hn, ih]
        simp

/-- A reader at the end of a field. -/
def AtEnd (r : Reader) : Prop := r.st = .inField ∨ r.st = .quoteInQuoted ∨ (r.st = .startField ∧ r.field = [])

theorem rows_cell (hd : IsDelim delim) {cell t : Str} (h : CellText delim cell t) (r : Reader)
    (hr : r.st = .startField ∨ r.st = .startRecord) (hf : r.field = []) (fresh : Bool) (s : Str) :
    (t = [] ∧ cell = []) ∨
    ∃ r', rows delim r fresh (t ++ s) = rows delim r' false s ∧ r'.field = cell ∧ r'.fields = r.fields ∧ AtEnd r' := by
  obtain ⟨st, f, fs⟩ := r
  simp only at hr hf
  subst hf
  -- The text after the spaces.
  have plain : ∀ (c : Char) (p : Str) (st : St) (fresh : Bool), (st = .startField ∨ st = .startRecord) → (∀ x ∈ c :: p, x ≠ delim ∧ x ≠ '\n' ∧ x ≠ '\r') →
      c ≠ '"' → c ≠ ' ' → rows delim ⟨st, [], fs⟩ fresh (c :: p ++ s) = rows delim ⟨.inField, c :: p, fs⟩ false s := by
    intro c p st fresh hst hp hq hsp
    obtain ⟨h1, h2, h3⟩ := hp c (List.mem_cons_self ..)
    rw [List.cons_append, rows_step (r' := ⟨.inField, [c], fs⟩) fresh _ _ h2]
    · exact rows_plain hd p [c] fs s fun x hx => hp x (List.mem_cons_of_mem _ hx)
    · rw [start_step (r := ⟨st, [], fs⟩) hst h2 h3]
      simp only [startField]
      rw [if_neg (by rintro (e | e); exact h2 e; exact h3 e), if_neg hq, if_neg hsp, if_neg h1]
      rfl
  have quoted : ∀ (st : St) (fresh : Bool), (st = .startField ∨ st = .startRecord) →
      rows delim ⟨st, [], fs⟩ fresh ('"' :: (doubled cell ++ ['"']) ++ s) = rows delim ⟨.quoteInQuoted, cell, fs⟩ false s := by
    intro st fresh hst
    rw [List.cons_append, rows_step (r' := ⟨.inQuoted, [], fs⟩) fresh _ _ (by decide)]
    · rw [List.append_assoc]
      exact rows_quoted cell [] fs false s
    · rw [start_step (r := ⟨st, [], fs⟩) hst (by decide) (by decide)]
      rfl
  cases h with
  | plain n cell hp hq hsp =>
    cases n with
    | zero =>
      cases cell with
      | nil => exact .inl ⟨rfl, rfl⟩
      | cons c p =>
        refine .inr ⟨⟨.inField, c :: p, fs⟩, ?_, rfl, rfl, .inl rfl⟩
        exact plain c p st fresh hr hp (fun e => hq (by rw [e]; rfl)) (fun e => hsp (by rw [e]; rfl))
    | succ n =>
      rw [List.append_assoc, rows_spaces n _ fresh _ hr]
      cases cell with
      | nil => exact .inr ⟨⟨.startField, [], fs⟩, rfl, rfl, rfl, .inr (.inr ⟨rfl, rfl⟩)⟩
      | cons c p =>
        refine .inr ⟨⟨.inField, c :: p, fs⟩, ?_, rfl, rfl, .inl rfl⟩
        exact plain c p .startField false (.inl rfl) hp (fun e => hq (by rw [e]; rfl)) (fun e => hsp (by rw [e]; rfl))
  | quoted n =>
    refine .inr ⟨⟨.quoteInQuoted, cell, fs⟩, ?_, rfl, rfl, .inr (.inl rfl)⟩
    cases n with
    | zero => exact quoted st fresh hr
    | succ n =>
      rw [List.append_assoc, rows_spaces n _ fresh _ hr]
      exact quoted .startField false (.inl rfl)

theorem rows_delim (hd : IsDelim delim) (r : Reader) (hr : AtEnd r ∨ (r.field = [] ∧ (r.st = .startField ∨ r.st = .startRecord)))
    (fresh : Bool) (s : Str) : rows delim r fresh (delim :: s) = rows delim ⟨.startField, [], r.fields ++ [r.field]⟩ false s := by
  obtain ⟨d1, d2, d3, d4⟩ := hd
  have hn : ¬ (delim = '\n' ∨ delim = '\r') := by rintro (e | e); exact d3 e; exact d4 e
  have hs : ∀ r : Reader, startField delim r (some delim) = ⟨.startField, [], r.fields ++ [r.field]⟩ := by
    intro r
    simp only [startField]
    rw [if_neg hn, if_neg d1, if_neg d2, if_pos (by simp)]
    rfl
  refine rows_step fresh s ?_ d3
  have other : (r.st = .startField ∨ r.st = .startRecord) → step delim r (some delim) = some ⟨.startField, [], r.fields ++ [r.field]⟩ := by
    intro h
    rw [start_step h d3 d4, hs]
  rcases hr with (h | h | h) | h
  · simp only [step, h]
    rw [if_neg hn, if_pos (by simp)]
    rfl
  · simp only [step, h]
    rw [if_neg d1, if_pos (by simp)]
    rfl
  · exact other (.inl h.1)
  · exact other h.2

theorem rows_row (hd : IsDelim delim) {row : List Str} {t : Str} (h : RowText delim row t) : ∀ (r : Reader) (fresh : Bool) (s : Str),
    (r.st = .startField ∨ r.st = .startRecord) → r.field = [] → (t ≠ [] ∨ (r.st = .startField ∧ fresh = false)) →
    ∃ r', rows delim r fresh (t ++ s) = rows delim r' false s ∧ r'.fields ++ [r'.field] = r.fields ++ row ∧ AtEnd r' := by
  induction h with
  | one hc =>
    intro r fresh s hr hf ht
    rcases rows_cell hd hc r hr hf fresh s with ⟨rfl, rfl⟩ | ⟨r', e, e1, e2, e3⟩
    · rcases ht with ht | ⟨h1, rfl⟩
      · exact absurd rfl ht
      · exact ⟨r, rfl, by rw [hf], .inr (.inr ⟨h1, hf⟩)⟩
    · exact ⟨r', e, by rw [e1, e2], e3⟩
  | @cons cell t cells u hc _ ih =>
    intro r fresh s hr hf _
    obtain ⟨r1, fresh1, e, e1, e2, e3⟩ : ∃ (r1 : Reader) (fresh1 : Bool), rows delim r fresh (t ++ (delim :: (u ++ s))) = rows delim r1 fresh1 (delim :: (u ++ s)) ∧
        r1.field = cell ∧ r1.fields = r.fields ∧ (AtEnd r1 ∨ (r1.field = [] ∧ (r1.st = .startField ∨ r1.st = .startRecord))) := by
      rcases rows_cell hd hc r hr hf fresh (delim :: (u ++ s)) with ⟨rfl, rfl⟩ | ⟨r', e, e1, e2, e3⟩
      · exact ⟨r, fresh, rfl, hf, rfl, .inr ⟨hf, hr⟩⟩
      · exact ⟨r', false, e, e1, e2, .inl e3⟩
    obtain ⟨r', f, f1, f2⟩ := ih ⟨.startField, [], r1.fields ++ [r1.field]⟩ false s (.inl rfl) rfl (.inr ⟨rfl, rfl⟩)
    refine ⟨r', ?_, ?_, f2⟩
    · rw [List.append_assoc, List.cons_append, e, rows_delim hd r1 e3, f]
    · rw [f1, e1, e2]
      simp

theorem rows_eol (r : Reader) (hr : AtEnd r) (s : Str) :
    rows delim r false ('\n' :: s) = (rows delim Reader.init true s).map ((r.fields ++ [r.field]) :: ·) ∨ delim = '\n' := by
  by_cases hn : delim = '\n'
  · exact .inr hn
  refine .inl ?_
  have h : step delim r (some '\n') = some (r.save .eatCrnl) := by
    rcases hr with h | h | h
    · simp only [step, h]; rw [if_pos (by simp)]
    · simp only [step, h]
      rw [if_neg (by decide), if_neg (fun e => hn e.symm), if_pos (by simp)]
    · simp only [step, h.1, startField]; rw [if_pos (by simp)]
  rw [rows]
  simp only [h]
  rw [if_pos (by simp)]
  rfl

theorem rows_crlf (r : Reader) (hr : AtEnd r) (s : Str) (hd : IsDelim delim) :
    rows delim r false ('\r' :: '\n' :: s) = (rows delim Reader.init true s).map ((r.fields ++ [r.field]) :: ·) := by
  have h : step delim r (some '\r') = some (r.save .eatCrnl) := by
    rcases hr with h | h | h
    · simp only [step, h]; rw [if_pos (by simp)]
    · simp only [step, h]
      rw [if_neg (by decide), if_neg (fun e => hd.2.2.2 e.symm), if_pos (by simp)]
    · simp only [step, h.1, startField]; rw [if_pos (by simp)]
  rw [rows_step false _ h (by decide), rows]
  rfl

theorem rows_last (r : Reader) (hr : AtEnd r) : rows delim r false [] = some [r.fields ++ [r.field]] := by
  have h : step delim r none = some (r.save .startRecord) := by
    rcases hr with h | h | h
    · simp only [step, h]
    · simp only [step, h]
    · simp only [step, h.1, startField]
  rw [rows]
  simp only [h]
  rfl

theorem rows_table (hd : IsDelim delim) {rs : List (List Str)} {t : Str} (h : TableText delim rs t) :
    rows delim Reader.init true t = some rs := by
  induction h with
  | nil => rfl
  | last hrow ht =>
    obtain ⟨r', e, e1, e2⟩ := rows_row hd hrow Reader.init true [] (.inr rfl) rfl (.inl ht)
    rw [List.append_nil] at e
    rw [e, rows_last r' e2, e1]
    rfl
  | line eol hrow ht heol _ ih =>
    obtain ⟨r', e, e1, e2⟩ := rows_row hd hrow Reader.init true (eol ++ _) (.inr rfl) rfl (.inl ht)
    rw [e]
    rcases heol with rfl | rfl
    · rcases rows_eol r' e2 _ with h | h
      · rw [List.singleton_append, h, ih, e1]
        rfl
      · exact absurd h hd.2.2.1
    · rw [List.cons_append, List.cons_append, List.nil_append, rows_crlf r' e2 _ hd, ih, e1]
      rfl

/-- Only a newline leads to the end of a line. -/
theorem step_ok (r : Reader) (hr : r.st ≠ .eatCrnl) (c : Char) (hc : c ≠ '\r') :
    ∃ r', step delim r (some c) = some r' ∧ (r'.st = .eatCrnl → c = '\n') := by
  by_cases hn : c = '\n'
  · obtain ⟨st, f, fs⟩ := r
    cases st <;> simp only [step] <;> first | exact absurd rfl hr | skip
    all_goals (repeat' split) <;> exact ⟨_, rfl, fun _ => hn⟩
  · have h : ¬ (c = '\n' ∨ c = '\r') := by rintro (e | e); exact hn e; exact hc e
    have hs : (startField delim r (some c)).st ≠ .eatCrnl := by
      simp only [startField]
      rw [if_neg h]
      split
      · nofun
      · split
        · nofun
        · split <;> nofun
    obtain ⟨st, f, fs⟩ := r
    cases st
    · simp only [step]; rw [if_neg h]; exact ⟨_, rfl, fun e => absurd e hs⟩
    · simp only [step]; exact ⟨_, rfl, fun e => absurd e hs⟩
    · simp only [step]; rw [if_neg h]
      split <;> exact ⟨_, rfl, nofun⟩
    · simp only [step]
      split <;> exact ⟨_, rfl, nofun⟩
    · simp only [step]
      split
      · exact ⟨_, rfl, nofun⟩
      · split
        · exact ⟨_, rfl, nofun⟩
        · exact ⟨_, rfl, nofun⟩
    · exact absurd rfl hr

theorem step_end (r : Reader) : ∃ r', step delim r none = some r' ∧ r'.st ≠ .eatCrnl := by
  obtain ⟨st, f, fs⟩ := r
  cases st <;> exact ⟨_, rfl, nofun⟩

theorem rows_total (s : Str) : ∀ (r : Reader) (fresh : Bool), r.st ≠ .eatCrnl → (∀ c ∈ s, c ≠ '\r') →
    ∃ rs, rows delim r fresh s = some rs := by
  induction s with
  | nil =>
    intro r fresh _ _
    rw [rows]
    cases fresh with
    | true => rw [if_pos rfl]; split <;> exact ⟨_, rfl⟩
    | false =>
      rw [if_neg (by decide)]
      obtain ⟨r', e, _⟩ := step_end (delim := delim) r
      simp only [e]
      split
      · exact ⟨_, rfl⟩
      · split <;> exact ⟨_, rfl⟩
  | cons c s ih =>
    intro r fresh hr hs
    obtain ⟨r', e, he⟩ := step_ok (delim := delim) r hr c (hs c (List.mem_cons_self ..))
    have hs' : ∀ c ∈ s, c ≠ '\r' := fun x hx => hs x (List.mem_cons_of_mem _ hx)
    rw [rows]
    simp only [e]
    by_cases hn : c = '\n'
    · rw [if_pos hn]
      obtain ⟨r2, e2, h2⟩ := step_end (delim := delim) r'
      simp only [e2]
      split
      · obtain ⟨rs, e3⟩ := ih Reader.init true (by nofun) hs'
        rw [e3]
        exact ⟨_, rfl⟩
      · exact ih r2 true h2 hs'
    · rw [if_neg hn]
      exact ih r' false (fun h => hn (he h)) hs'

end Verif.Csv
