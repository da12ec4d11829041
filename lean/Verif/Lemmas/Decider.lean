import Verif.Spec.Decider
import Verif.Lemmas.Dict
import Mathlib.Data.List.Induction

namespace Verif.Decider

open Verif

/-! ### Devices of the proofs -/

/-- What a build is made from: the contents of the inputs, in any order. -/
def SameFed (c : Cfg) (fs : FS) (is : List Item) (fs' : FS) (is' : List Item) : Prop :=
  (is.map (c.fed fs)).Perm (is'.map (c.fed fs'))

/-- The texts hashed for a build with these inputs. -/
def Cfg.texts (c : Cfg) (fs : FS) (is : List Item) : List Bytes :=
  (sortBytes ((is.filterMap (c.fed fs)).map c.H)).flatten :: is.filterMap (c.fed fs)

/-- A call that records: the files are there, and `reset` is set. -/
def Logs (c : Cfg) (fs : FS) : Event → Bytes → Bytes → Prop
  | .call inputs output true, i, o =>
    filesMissing fs inputs output = some false ∧ c.calculateHash fs inputs output = some (i, o)
  | _, _, _ => False

/-! ### Sorting byte strings -/

theorem bytesLe_total (a b : Bytes) : bytesLe a b = true ∨ bytesLe b a = true := by
  induction a generalizing b with
  | nil => simp [bytesLe]
  | cons x s ih =>
    cases b with
    | nil => simp [bytesLe]
    | cons y t =>
      simp only [bytesLe]
      by_cases h1 : x < y
      · simp [h1]
      · by_cases h2 : y < x
        · simp [h2]
        · simpa [h1, h2] using ih t

theorem bytesLe_antisymm (a b : Bytes) (h1 : bytesLe a b = true) (h2 : bytesLe b a = true) : a = b := by
  induction a generalizing b with
  | nil => cases b with
    | nil => rfl
    | cons y t => simp [bytesLe] at h2
  | cons x s ih =>
    cases b with
    | nil => simp [bytesLe] at h1
    | cons y t =>
      simp only [bytesLe] at h1 h2
      by_cases hxy : x < y
      · have : ¬ y < x := by intro h; exact absurd (UInt8.lt_trans hxy h) (UInt8.lt_irrefl x)
        simp [hxy, this] at h2
      · by_cases hyx : y < x
        · simp [hxy, hyx] at h1
        · simp only [hxy, hyx, if_false] at h1 h2
          have hx : x = y := by
            apply UInt8.toNat_inj.1
            rw [UInt8.lt_iff_toNat_lt] at hxy hyx
            omega
          rw [hx, ih t h1 h2]

theorem bytesLe_trans (a b c : Bytes) (h1 : bytesLe a b = true) (h2 : bytesLe b c = true) : bytesLe a c = true := by
  induction a generalizing b c with
  | nil => simp [bytesLe]
  | cons x s ih =>
    cases b with
    | nil => simp [bytesLe] at h1
    | cons y t =>
      cases c with
      | nil => simp [bytesLe] at h2
      | cons z u =>
        simp only [bytesLe, UInt8.lt_iff_toNat_lt] at h1 h2 ⊢
        by_cases a1 : x.toNat < y.toNat
        · by_cases a2 : y.toNat < z.toNat
          · simp [show x.toNat < z.toNat by omega]
          · by_cases a3 : z.toNat < y.toNat
            · simp [a2, a3] at h2
            · simp [show x.toNat < z.toNat by omega]
        · by_cases a1' : y.toNat < x.toNat
          · simp [a1, a1'] at h1
          · simp only [a1, a1', if_false] at h1
            by_cases a2 : y.toNat < z.toNat
            · simp [show x.toNat < z.toNat by omega]
            · by_cases a3 : z.toNat < y.toNat
              · simp [a2, a3] at h2
              · simp only [a2, a3, if_false] at h2
                simp only [show ¬ x.toNat < z.toNat by omega, show ¬ z.toNat < x.toNat by omega, if_false]
                exact ih t u h1 h2

theorem insertBytes_perm (a : Bytes) (l : List Bytes) : (insertBytes a l).Perm (a :: l) := by
  induction l with
  | nil => exact List.Perm.refl _
  | cons b l ih =>
    simp only [insertBytes]
    split
    · exact List.Perm.refl _
    · exact (List.Perm.cons b ih).trans (List.Perm.swap a b l)

theorem sortBytes_perm (l : List Bytes) : (sortBytes l).Perm l := by
  induction l with
  | nil => exact List.Perm.refl _
  | cons a l ih => exact (insertBytes_perm a _).trans (List.Perm.cons a ih)

theorem insertBytes_sorted (a : Bytes) (l : List Bytes) (h : l.Pairwise fun x y => bytesLe x y = true) :
    (insertBytes a l).Pairwise fun x y => bytesLe x y = true := by
  induction l with
  | nil => simp [insertBytes]
  | cons b l ih =>
    rw [List.pairwise_cons] at h
    simp only [insertBytes]
    split
    · rename_i hab
      rw [List.pairwise_cons, List.pairwise_cons]
      refine ⟨?_, h⟩
      intro y hy
      rcases List.mem_cons.1 hy with rfl | hy
      · exact hab
      · exact bytesLe_trans a b y hab (h.1 y hy)
    · rename_i hab
      rw [List.pairwise_cons]
      refine ⟨?_, ih h.2⟩
      intro y hy
      rcases List.mem_cons.1 ((insertBytes_perm a l).mem_iff.1 hy) with rfl | hy
      · exact (bytesLe_total y b).resolve_left hab
      · exact h.1 y hy

theorem sortBytes_sorted (l : List Bytes) : (sortBytes l).Pairwise fun x y => bytesLe x y = true := by
  induction l with
  | nil => simp [sortBytes]
  | cons a l ih => exact insertBytes_sorted a _ ih

theorem sorted_perm_eq (l l' : List Bytes) (hp : l.Perm l') (h : l.Pairwise fun x y => bytesLe x y = true)
    (h' : l'.Pairwise fun x y => bytesLe x y = true) : l = l' :=
  List.Perm.eq_of_pairwise (fun a b _ _ h1 h2 => bytesLe_antisymm a b h1 h2) h h' hp

theorem sortBytes_congr (l l' : List Bytes) (hp : l.Perm l') : sortBytes l = sortBytes l' :=
  sorted_perm_eq _ _ ((sortBytes_perm l).trans (hp.trans (sortBytes_perm l').symm)) (sortBytes_sorted l)
    (sortBytes_sorted l')

theorem sortBytes_eq_iff (l l' : List Bytes) : sortBytes l = sortBytes l' ↔ l.Perm l' :=
  ⟨fun h => (sortBytes_perm l).symm.trans (h ▸ sortBytes_perm l'), sortBytes_congr l l'⟩

theorem flatten_inj (n : Nat) (hn : n > 0) (l l' : List Bytes) (h : ∀ x ∈ l, x.length = n)
    (h' : ∀ x ∈ l', x.length = n) (he : l.flatten = l'.flatten) : l = l' := by
  induction l generalizing l' with
  | nil =>
    cases l' with
    | nil => rfl
    | cons y l' =>
      have := h' y (by simp)
      have hy : y = [] := by
        have := congrArg List.length he
        simp at this
        exact List.length_eq_zero_iff.1 (by omega)
      subst hy; simp at this; omega
  | cons x l ih =>
    cases l' with
    | nil =>
      have hx := h x (by simp)
      have := congrArg List.length he
      rw [List.flatten_cons, List.length_append] at this
      simp only [List.flatten_nil, List.length_nil] at this
      omega
    | cons y l' =>
      have hx := h x (by simp); have hy := h' y (by simp)
      simp only [List.flatten_cons] at he
      obtain ⟨e1, e2⟩ := List.append_inj he (by omega)
      rw [e1, ih l' (fun z hz => h z (by simp [hz])) (fun z hz => h' z (by simp [hz])) e2]

/-! ### Lines and chunks -/

theorem splitByte_ne_nil (nl : UInt8) (s : Bytes) : splitByte nl s ≠ [] := by
  cases s with
  | nil => simp [splitByte]
  | cons c t =>
    simp only [splitByte]
    split
    · simp
    · split <;> simp

theorem splitByte_lines (nl : UInt8) (ls : List Bytes) (last : Bytes) (h : ∀ l ∈ ls, nl ∉ l) (hl : nl ∉ last) :
    splitByte nl ((ls.flatMap fun l => l ++ [nl]) ++ last) = ls ++ [last] := by
  have one : ∀ (l r : Bytes), nl ∉ l → splitByte nl (l ++ nl :: r) = l :: splitByte nl r := by
    intro l
    induction l with
    | nil => intro r _; simp [splitByte]
    | cons c t ih =>
      intro r hn
      have hc : c ≠ nl := by rintro rfl; simp at hn
      rw [List.cons_append, splitByte, if_neg hc, ih r (by intro h; simp [h] at hn)]
  have fin : ∀ l : Bytes, nl ∉ l → splitByte nl l = [l] := by
    intro l
    induction l with
    | nil => intro _; rfl
    | cons c t ih =>
      intro hn
      have hc : c ≠ nl := by rintro rfl; simp at hn
      rw [splitByte, if_neg hc, ih (by intro h; simp [h] at hn)]
  induction ls with
  | nil => simpa using fin last hl
  | cons l ls ih =>
    rw [List.flatMap_cons, List.append_assoc, List.append_assoc, List.singleton_append, one l _ (h l (by simp)),
      ih fun x hx => h x (by simp [hx])]
    rfl

theorem splitByte_spec (nl : UInt8) (s : Bytes) : ∃ ls last, splitByte nl s = ls ++ [last] ∧ IsLines nl s ls last := by
  induction s with
  | nil => exact ⟨[], [], rfl, by simp [IsLines]⟩
  | cons c t ih =>
    obtain ⟨ls, last, h1, h2, h3, h4⟩ := ih
    by_cases hc : c = nl
    · subst hc
      refine ⟨[] :: ls, last, by simp [splitByte, h1], ?_, ?_, h4⟩
      · simp [h2]
      · intro l hl
        rcases List.mem_cons.1 hl with rfl | hl
        · simp
        · exact h3 l hl
    · cases ls with
      | nil =>
        refine ⟨[], c :: last, by simp [splitByte, hc, h1], ?_, by simp, ?_⟩
        · simp [h2]
        · intro h
          rcases List.mem_cons.1 h with rfl | h
          · exact hc rfl
          · exact h4 h
      | cons l ls =>
        refine ⟨(c :: l) :: ls, last, by simp [splitByte, hc, h1], ?_, ?_, h4⟩
        · simp [h2]
        · intro x hx
          rcases List.mem_cons.1 hx with rfl | hx
          · intro h
            rcases List.mem_cons.1 h with rfl | h
            · exact hc rfl
            · exact h3 l (by simp) h
          · exact h3 x (by simp [hx])

theorem isLines_unique (nl : UInt8) (s : Bytes) (ls ls' : List Bytes) (last last' : Bytes) (h : IsLines nl s ls last)
    (h' : IsLines nl s ls' last') : ls = ls' ∧ last = last' := by
  have e := splitByte_lines nl ls last h.2.1 h.2.2
  have e' := splitByte_lines nl ls' last' h'.2.1 h'.2.2
  rw [← h.1] at e
  rw [← h'.1, e] at e'
  have := List.append_inj' e' rfl
  exact ⟨this.1, by simpa using this.2⟩

theorem lineSplitter_spec (nl : UInt8) (chunks : List Bytes) (tail : Bytes) (ht : nl ∉ tail) (ls : List Bytes)
    (last : Bytes) (h : IsLines nl (tail ++ chunks.flatten) ls last) :
    lineSplitter nl tail chunks = ls ++ if last = [] then [] else [last] := by
  induction chunks generalizing tail ls last with
  | nil =>
    obtain ⟨e1, e2⟩ := isLines_unique nl _ ls [] last tail h ⟨by simp, by simp, ht⟩
    subst e1; subst e2
    simp [lineSplitter]
  | cons chunk chunks ih =>
    obtain ⟨ls1, last1, hs, h1, h2, h3⟩ := splitByte_spec nl (tail ++ chunk)
    obtain ⟨ls2, last2, hs2, g1, g2, g3⟩ := splitByte_spec nl (last1 ++ chunks.flatten)
    have htot : IsLines nl (tail ++ (chunk :: chunks).flatten) (ls1 ++ ls2) last2 := by
      refine ⟨?_, ?_, g3⟩
      · rw [List.flatten_cons, ← List.append_assoc, h1, List.append_assoc, g1]
        simp
      · intro l hl
        rcases List.mem_append.1 hl with hl | hl
        · exact h2 l hl
        · exact g2 l hl
    obtain ⟨e1, e2⟩ := isLines_unique nl _ _ _ _ _ h htot
    subst e1; subst e2
    have hrec := ih last1 h3 ls2 last ⟨g1, g2, g3⟩
    unfold lineSplitter
    rw [hs]
    cases ls1 with
    | nil => simpa using hrec
    | cons l ls1 => simp [hrec, List.append_assoc]

theorem readChunks_flatten (n : Nat) (hn : n > 0) (s : Bytes) : (readChunks n s).flatten = s := by
  have key : ∀ k, ((List.range k).map fun i => (s.drop (i * n)).take n).flatten = s.take (k * n) := by
    intro k
    induction k with
    | zero => simp
    | succ k ih =>
      rw [List.range_succ, List.map_append, List.flatten_append, ih]
      simp only [List.map_cons, List.map_nil, List.flatten_cons, List.flatten_nil, List.append_nil]
      rw [Nat.succ_mul, List.take_add]
  unfold readChunks
  rw [key]
  apply List.take_of_length_le
  have h1 := Nat.div_add_mod (s.length + n - 1) n
  have h2 := Nat.mod_lt (s.length + n - 1) hn
  rw [Nat.mul_comm] at h1
  omega

theorem readChunks_nonempty (n : Nat) (hn : n > 0) (s : Bytes) : ∀ c ∈ readChunks n s, c ≠ [] := by
  intro c hc
  unfold readChunks at hc
  obtain ⟨i, hi, rfl⟩ := List.mem_map.1 hc
  rw [List.mem_range] at hi
  have : i * n < s.length := by
    have h1 := Nat.div_mul_le_self (s.length + n - 1) n
    have h2 : (i + 1) * n ≤ (s.length + n - 1) / n * n := Nat.mul_le_mul_right n hi
    rw [Nat.succ_mul] at h2
    omega
  intro h
  have h2 := congrArg List.length h
  simp at h2
  omega

/-! ### Digests -/

theorem mapM_perm_map {α β : Type} (f : α → Option β) (l : List α) (bs : List β) :
    l.mapM f = some bs ↔ l.map f = bs.map some := by
  induction l generalizing bs with
  | nil => cases bs <;> simp
  | cons a l ih =>
    rw [List.mapM_cons]
    cases hf : f a with
    | none => cases bs <;> simp [hf]
    | some b =>
      cases bs with
      | nil => cases hm : l.mapM f <;> simp [hf, hm]
      | cons b' bs =>
        cases hm : l.mapM f with
        | none =>
          simp only [Option.bind_eq_bind, Option.bind_some, Option.bind_none, List.map_cons, hf, List.cons.injEq]
          constructor
          · intro h; cases h
          · intro h
            rw [← ih, hm] at h
            exact absurd h.2 (by simp)
        | some bs' =>
          simp only [Option.bind_eq_bind, Option.bind_some, List.map_cons, hf, List.cons.injEq, Option.some.injEq]
          rw [← ih, hm]
          simp

theorem mapM_none_iff {α β : Type} (f : α → Option β) (l : List α) : l.mapM f = none ↔ ∃ a ∈ l, f a = none := by
  induction l with
  | nil => simp
  | cons a l ih =>
    rw [List.mapM_cons]
    cases hf : f a with
    | none => simp [hf]
    | some b =>
      cases hm : l.mapM f with
      | none => simp [hf, hm, ih.1 hm]
      | some bs =>
        simp only [Option.bind_eq_bind, Option.bind_some, List.mem_cons, exists_eq_or_imp, hf]
        have : ¬ ∃ a ∈ l, f a = none := fun h => by rw [ih.2 h] at hm; simp at hm
        simpa using this

theorem hashItems_perm (c : Cfg) (fs : FS) (l l' : List Item) (h : l.Perm l') : c.hashItems fs l = c.hashItems fs l' := by
  unfold Cfg.hashItems
  cases hm : l.mapM (c.fed fs) with
  | none =>
    obtain ⟨a, ha, hf⟩ := (mapM_none_iff _ _).1 hm
    rw [(mapM_none_iff _ l').2 ⟨a, h.mem_iff.1 ha, hf⟩]
  | some bs =>
    cases hm' : l'.mapM (c.fed fs) with
    | none =>
      obtain ⟨a, ha, hf⟩ := (mapM_none_iff _ _).1 hm'
      rw [(mapM_none_iff _ l).2 ⟨a, h.mem_iff.2 ha, hf⟩] at hm
      simp at hm
    | some bs' =>
      have e1 := (mapM_perm_map _ _ _).1 hm
      have e2 := (mapM_perm_map _ _ _).1 hm'
      have hp : (bs.map some).Perm (bs'.map some) := by rw [← e1, ← e2]; exact h.map _
      have hp' : bs.Perm bs' := by
        have := hp.filterMap id
        simpa [List.filterMap_map] using this
      simp only [Option.map_some]
      rw [sortBytes_congr _ _ (hp'.map c.H)]

theorem filterMap_of_mapM (c : Cfg) (fs : FS) (l : List Item) (bs : List Bytes) (h : l.mapM (c.fed fs) = some bs) :
    l.filterMap (c.fed fs) = bs := by
  have := (mapM_perm_map _ _ _).1 h
  have h2 : (l.map (c.fed fs)).filterMap id = bs := by rw [this]; simp [List.filterMap_map]
  simpa [List.filterMap_map] using h2

/-! ### Histories -/

/-- Without missing files the digests exist. -/
theorem digests_exist (c : Cfg) (fs : FS) (inputs : List Item) (output : Item)
    (h : filesMissing fs inputs output = some false) : ∃ i o, c.calculateHash fs inputs output = some (i, o) := by
  unfold filesMissing at h
  split at h
  · simp at h
  · split at h
    · simp at h
    · rename_i h1
      split at h
      · simp at h
      · rename_i h2
        have ex : ∀ it, missing fs it = false → ∃ b, c.fed fs it = some b := by
          intro it hit
          cases it with
          | other b => exact ⟨b, rfl⟩
          | path p =>
            simp only [missing, Option.isNone_eq_false_iff] at hit
            obtain ⟨x, hx⟩ := Option.isSome_iff_exists.1 hit
            simp [Cfg.fed, hx]
        have hall : ∀ it ∈ sortedBy c.str inputs, ∃ b, c.fed fs it = some b := by
          intro it hit
          apply ex
          rw [mem_sortedBy] at hit
          simp only [List.any_eq_true, not_exists, not_and] at h1
          simpa using h1 it hit
        have hs : ∃ bs, (sortedBy c.str inputs).mapM (c.fed fs) = some bs := by
          cases hm : (sortedBy c.str inputs).mapM (c.fed fs) with
          | some bs => exact ⟨bs, rfl⟩
          | none =>
            obtain ⟨a, ha, hf⟩ := (mapM_none_iff _ _).1 hm
            obtain ⟨b, hb⟩ := hall a ha
            rw [hb] at hf; simp at hf
        obtain ⟨bs, hbs⟩ := hs
        obtain ⟨b, hb⟩ := ex output (by simpa using h2)
        unfold Cfg.calculateHash Cfg.hashItems
        simp [hbs, hb]

theorem step_db (c : Cfg) (fs : FS) (db : Dict Bytes Bytes) (e : Event) :
    (∃ i o, Logs c fs e i o ∧ (c.step (fs, db) e).2 = db.set i o) ∨
    ((∀ i o, ¬ Logs c fs e i o) ∧ (c.step (fs, db) e).2 = db) := by
  cases e with
  | files fs' => exact Or.inr ⟨fun _ _ h => h, rfl⟩
  | call inputs output reset =>
    cases hm : filesMissing fs inputs output with
    | none =>
      refine Or.inr ⟨?_, by simp [Cfg.step, Cfg.buildNeeded, hm]⟩
      intro i o; cases reset <;> simp [Logs, hm]
    | some b =>
      cases b with
      | true =>
        refine Or.inr ⟨?_, by simp [Cfg.step, Cfg.buildNeeded, hm]⟩
        intro i o; cases reset <;> simp [Logs, hm]
      | false =>
        obtain ⟨i, o, hd⟩ := digests_exist c fs inputs output hm
        cases reset with
        | true => exact Or.inl ⟨i, o, ⟨hm, hd⟩, by simp [Cfg.step, Cfg.buildNeeded, hm, hd]⟩
        | false => exact Or.inr ⟨fun _ _ h => h, by simp [Cfg.step, Cfg.buildNeeded, hm, hd]⟩

theorem run_snoc (c : Cfg) (st : FS × Dict Bytes Bytes) (es : List Event) (e : Event) :
    c.run st (es ++ [e]) = c.step (c.run st es) e := by simp [Cfg.run]

/-- What the database knows after any history: the last record for the digest, or what was there before. -/
theorem run_db (c : Cfg) (st : FS × Dict Bytes Bytes) (es : List Event) (i o : Bytes) :
    (c.run st es).2.get? i = some o ↔
      (∃ pre e post, es = pre ++ e :: post ∧ Logs c (c.run st pre).1 e i o ∧
        ∀ pre' e' post' o', post = pre' ++ e' :: post' → ¬ Logs c (c.run st (pre ++ e :: pre')).1 e' i o') ∨
      (st.2.get? i = some o ∧
        ∀ pre' e' post' o', es = pre' ++ e' :: post' → ¬ Logs c (c.run st pre').1 e' i o') := by
  induction es using List.reverseRecOn with
  | nil =>
    simp [Cfg.run]
  | append_singleton es e ih =>
    rw [run_snoc]
    have hst : c.run st es = ((c.run st es).1, (c.run st es).2) := rfl
    rcases step_db c (c.run st es).1 (c.run st es).2 e with ⟨i', o', hr, hd⟩ | ⟨hr, hd⟩
    · have hu : ∀ i o, Logs c (c.run st es).1 e i o → i = i' ∧ o = o' := by
        intro i o h
        cases e with
        | files fs => exact h.elim
        | call a b r =>
          cases r with
          | false => exact h.elim
          | true =>
            have := h.2.symm.trans hr.2
            simpa using this
      rw [show c.step (c.run st es) e = c.step ((c.run st es).1, (c.run st es).2) e from rfl, hd, Dict.get?_set]
      by_cases hi : i' = i
      · subst hi
        rw [if_pos rfl]
        constructor
        · intro h
          simp only [Option.some.injEq] at h
          subst h
          exact Or.inl ⟨es, e, [], by simp, hr, by intro a b d _ h; simp at h⟩
        · rintro (⟨pre, e1, post, h1, h2, h3⟩ | ⟨_, h3⟩)
          · rcases List.eq_nil_or_concat post with rfl | ⟨post', e2, rfl⟩
            · have := List.append_inj' h1 rfl
              obtain ⟨rfl, h4⟩ := this
              simp at h4; subst h4
              rw [(hu _ _ h2).2]
            · rw [List.concat_eq_append] at h1 h3
              have h4 : es ++ [e] = (pre ++ e1 :: post') ++ [e2] := by rw [h1]; simp
              obtain ⟨rfl, h5⟩ := List.append_inj' h4 rfl
              simp at h5; subst h5
              exact absurd hr (h3 post' e [] o' (by simp))
          · exact absurd hr (h3 es e [] o' rfl)
      · rw [if_neg hi, ih]
        constructor
        · rintro (⟨pre, e1, post, rfl, h2, h3⟩ | ⟨h2, h3⟩)
          · refine Or.inl ⟨pre, e1, post ++ [e], by simp, h2, ?_⟩
            intro a b d o1 h
            rcases List.eq_nil_or_concat d with rfl | ⟨d', x, rfl⟩
            · obtain ⟨rfl, h5⟩ := List.append_inj' h rfl
              simp at h5; subst h5
              intro hc; exact hi (hu _ _ hc).1.symm
            · rw [List.concat_eq_append] at h
              have h4 : post ++ [e] = (a ++ b :: d') ++ [x] := by rw [h]; simp
              obtain ⟨rfl, _⟩ := List.append_inj' h4 rfl
              exact h3 a b d' o1 rfl
          · refine Or.inr ⟨h2, ?_⟩
            intro a b d o1 h
            rcases List.eq_nil_or_concat d with rfl | ⟨d', x, rfl⟩
            · obtain ⟨rfl, h5⟩ := List.append_inj' h rfl
              simp at h5; subst h5
              intro hc; exact hi (hu _ _ hc).1.symm
            · rw [List.concat_eq_append] at h
              have h4 : es ++ [e] = (a ++ b :: d') ++ [x] := by rw [h]; simp
              obtain ⟨rfl, _⟩ := List.append_inj' h4 rfl
              exact h3 a b d' o1 rfl
        · rintro (⟨pre, e1, post, h1, h2, h3⟩ | ⟨h2, h3⟩)
          · rcases List.eq_nil_or_concat post with rfl | ⟨post', e2, rfl⟩
            · obtain ⟨rfl, h4⟩ := List.append_inj' h1 rfl
              simp at h4; subst h4
              exact absurd (hu _ _ h2).1.symm hi
            · rw [List.concat_eq_append] at h1 h3
              have h4 : es ++ [e] = (pre ++ e1 :: post') ++ [e2] := by rw [h1]; simp
              obtain ⟨rfl, h5⟩ := List.append_inj' h4 rfl
              refine Or.inl ⟨pre, e1, post', rfl, h2, ?_⟩
              intro a b d o1 h
              exact h3 a b (d ++ [e2]) o1 (by rw [h]; simp)
          · refine Or.inr ⟨h2, ?_⟩
            intro a b d o1 h
            exact h3 a b (d ++ [e]) o1 (by rw [h]; simp)
    · rw [show c.step (c.run st es) e = c.step ((c.run st es).1, (c.run st es).2) e from rfl, hd, ih]
      constructor
      · rintro (⟨pre, e1, post, rfl, h2, h3⟩ | ⟨h2, h3⟩)
        · refine Or.inl ⟨pre, e1, post ++ [e], by simp, h2, ?_⟩
          intro a b d o1 h
          rcases List.eq_nil_or_concat d with rfl | ⟨d', x, rfl⟩
          · obtain ⟨rfl, h5⟩ := List.append_inj' h rfl
            simp at h5; subst h5
            exact hr _ _
          · rw [List.concat_eq_append] at h
            have h4 : post ++ [e] = (a ++ b :: d') ++ [x] := by rw [h]; simp
            obtain ⟨rfl, _⟩ := List.append_inj' h4 rfl
            exact h3 a b d' o1 rfl
        · refine Or.inr ⟨h2, ?_⟩
          intro a b d o1 h
          rcases List.eq_nil_or_concat d with rfl | ⟨d', x, rfl⟩
          · obtain ⟨rfl, h5⟩ := List.append_inj' h rfl
            simp at h5; subst h5
            exact hr _ _
          · rw [List.concat_eq_append] at h
            have h4 : es ++ [e] = (a ++ b :: d') ++ [x] := by rw [h]; simp
            obtain ⟨rfl, _⟩ := List.append_inj' h4 rfl
            exact h3 a b d' o1 rfl
      · rintro (⟨pre, e1, post, h1, h2, h3⟩ | ⟨h2, h3⟩)
        · rcases List.eq_nil_or_concat post with rfl | ⟨post', e2, rfl⟩
          · obtain ⟨rfl, h4⟩ := List.append_inj' h1 rfl
            simp at h4; subst h4
            exact absurd h2 (hr _ _)
          · rw [List.concat_eq_append] at h1 h3
            have h4 : es ++ [e] = (pre ++ e1 :: post') ++ [e2] := by rw [h1]; simp
            obtain ⟨rfl, h5⟩ := List.append_inj' h4 rfl
            refine Or.inl ⟨pre, e1, post', rfl, h2, ?_⟩
            intro a b d o1 h
            exact h3 a b (d ++ [e2]) o1 (by rw [h]; simp)
        · refine Or.inr ⟨h2, ?_⟩
          intro a b d o1 h
          exact h3 a b (d ++ [e]) o1 (by rw [h]; simp)

end Verif.Decider
