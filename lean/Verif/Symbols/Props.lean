import Verif.Symbols.TypeLemmas
/-! # Properties: reading symbols, writing definitions -/
namespace Verif.Symbols

theorem joined_eq : ∀ as : List Text, joined as = commas as
  | [] => rfl
  | [a] => by rw [commas_one]; rfl
  | a :: b :: as => by
    rw [commas_cons, joined, joined_eq (b :: as)]
    · simp
    · intro h; cases h

theorem castChars_eq {s : List Int} (h : Plain s) : castChars (codes s) = commas (s.map cppChar) := by
  rw [castChars, joined_eq, codes, List.map_map]
  congr 1
  refine List.map_congr_left fun c hc => ?_
  have := (h.2 c hc).1
  rw [Function.comp, cppChar, dec_eq, intText, if_neg (by omega)]

theorem tmpl_false (name : Text) (args : List Text) :
    tmpl false name args = name ++ '<' :: commas args ++ ['>'] := by
  rw [tmpl, shut]
  simp

theorem toCpp_eq {m : Sym} (h : m.Readable) : m.read.toCpp = m.type false cppChar := by
  have ht : (m.tags.map fun t => (⟨codes t.1, codes t.2⟩ : Tag)).map Tag.toCpp = m.tags.map (tagType false cppChar) := by
    rw [List.map_map]
    refine List.map_congr_left fun t ht => ?_
    rw [Function.comp, Tag.toCpp, castChars_eq (h.tags t ht).1, castChars_eq (h.tags t ht).2, tagType, tmpl_false,
      commas_cons, commas_one, strType, strType, tmpl_false, tmpl_false]
    simp
  have hn : (m.named.map fun a => (⟨codes a.1, a.2.1, a.2.2⟩ : NamedArg)).map NamedArg.toCpp =
      m.named.map (namedType false cppChar) := by
    rw [List.map_map]
    refine List.map_congr_left fun a ha => ?_
    rw [Function.comp, NamedArg.toCpp, castChars_eq (h.named a ha), namedType, tmpl_false, commas_cons, commas_cons,
      commas_one, strType, tmpl_false, dec_eq, dec_eq]
    simp
  rw [Message.toCpp, Sym.read]
  simp only [ht, hn, joined_eq, castChars_eq h.text]
  rw [Sym.type, tmpl_false, tmpl_false, tmpl_false, tmpl_false, tmpl_false, strType, tmpl_false, commas_one,
    commas_cons, commas_cons, commas_cons, commas_cons, commas_one, dec_eq]
  simp

/-- Each message of the program is read from its symbol, whatever is printed before the symbol, and
however the demangler writes closing brackets: text, argument types, id with its suffix, named arguments
and tags. Part of the claim: the texts are not empty and their characters not negative. -/
theorem C137_message_partial (n : Nat) (long gap : Bool) (m : Sym) (h : m.Readable) :
    readLine (nmLine n long gap t!"catalog" (m.type gap nmChar)) = some (some (.message
      ⟨codes m.text, m.args, m.id, m.suffix, m.named.map fun a => ⟨codes a.1, a.2.1, a.2.2⟩,
        m.tags.map fun t => ⟨codes t.1, codes t.2⟩⟩)) := by
  obtain ⟨r, hr, e⟩ := readLine_nm n long gap (k := t!"catalog") (.inl rfl) (fun x hx => m.type_free (gap := gap) h.args h.suffix hx)
    (by rw [Sym.type, tmpl, shut]; simp)
  rw [readLine, e]
  simp only [if_true, Message.ofCpp_type h hr]
  rfl

@[inherit_doc C137_message_partial]
theorem C137_module_partial (n : Nat) (long gap : Bool) (m : ModSym) (hs : ∀ c ∈ m.suffix, c.isAlpha = true)
    (ht : Plain m.text) :
    readLine (nmLine n long gap t!"module" (m.type gap nmChar)) =
      some (some (.module ⟨codes m.text, m.id, m.suffix⟩)) := by
  obtain ⟨r, hr, e⟩ := readLine_nm n long gap (k := t!"module") (.inr rfl) (fun x hx => m.type_free (gap := gap) hs hx)
    (by rw [ModSym.type, tmpl, shut]; simp)
  rw [readLine, e]
  simp only [Module.ofCpp_type hs ht hr]
  rfl

/-- `LOG("{}", v)` with `v` of type `std::pair<int, A<B> >`, an id of type `unsigned int`, a tag and a
named argument. -/
def sample : Sym :=
  ⟨[t!"std::pair<int, A<B> >", t!"int"], 5, t!"u", [123, 125], [([97], [98, 99])], [([120], 0, 1)]⟩

theorem sample_readable : sample.Readable where
  args := by
    intro a ha
    have ha : a = t!"std::pair<int, A<B> >" ∨ a = t!"int" := by simpa [sample] using ha
    rcases ha with rfl | rfl
    · exact ⟨by decide, ⟨⟨_, _, rfl, by decide⟩, '>', t!"std::pair<int, A<B> ", rfl, by decide⟩, by decide⟩
    · exact ⟨by decide, ⟨⟨_, _, rfl, by decide⟩, 't', t!"in", rfl, by decide⟩, by decide⟩
  suffix := by decide
  text := ⟨by decide, by decide⟩
  tags := by
    intro t ht
    rw [List.mem_singleton.1 ht]
    exact ⟨⟨by decide, by decide⟩, by decide, by decide⟩
  named := by
    intro t ht
    rw [List.mem_singleton.1 ht]
    exact ⟨by decide, by decide⟩

example : sample.Readable := sample_readable

example : readLine (nmLine 17 false true t!"catalog" (sample.type true nmChar)) = some (some (.message
    ⟨[123, 125], [t!"std::pair<int, A<B> >", t!"int"], 5, t!"u", [⟨[120], 0, 1⟩], [⟨[97], [98, 99]⟩]⟩)) :=
  C137_message_partial 17 false true sample sample_readable

/-- Other lines are passed over. -/
example : readLine t!"                 U memcpy" = some none := by decide +kernel

/-- A message with an empty text stops the script. -/
theorem C137_violated_empty (n : Nat) (long gap : Bool) :
    readLine (nmLine n long gap t!"catalog" (Sym.type gap nmChar ⟨[], -1, [], [], [], []⟩)) = none := by
  have h : ∀ long gap : Bool, reMatch lineRe (t!"U unsigned " ++ (if long then t!"long" else t!"int") ++ t!" " ++
      tmpl gap t!"catalog" [Sym.type gap nmChar ⟨[], -1, [], [], [], []⟩] ++ t!"()") =
      some [t!"catalog", Sym.type gap nmChar ⟨[], -1, [], [], [], []⟩ ++ (if gap then [' '] else [])] := by
    decide +kernel
  have h2 : ∀ gap : Bool, Message.ofCpp (Sym.type gap nmChar ⟨[], -1, [], [], [], []⟩ ++ (if gap then [' '] else [])) = none := by
    decide +kernel
  have h3 : ∀ long gap : Bool, strip (t!"U unsigned " ++ (if long then t!"long" else t!"int") ++ t!" " ++
      tmpl gap t!"catalog" [Sym.type gap nmChar ⟨[], -1, [], [], [], []⟩] ++ t!"()") =
      t!"U unsigned " ++ (if long then t!"long" else t!"int") ++ t!" " ++
      tmpl gap t!"catalog" [Sym.type gap nmChar ⟨[], -1, [], [], [], []⟩] ++ t!"()" := by
    decide +kernel
  have h4 : strip (nmLine n long gap t!"catalog" (Sym.type gap nmChar ⟨[], -1, [], [], [], []⟩)) =
      t!"U unsigned " ++ (if long then t!"long" else t!"int") ++ t!" " ++
      tmpl gap t!"catalog" [Sym.type gap nmChar ⟨[], -1, [], [], [], []⟩] ++ t!"()" := by
    have := h3 long gap
    rw [← strip_left n] at this
    rw [nmLine]
    simpa only [List.append_assoc] using this
  rw [readLine, h4, h]
  simp [h2]

/-- `é` in UTF-8: where `char` is signed, a message with this text stops the script, and where it is not,
the text in the catalog is another. -/
theorem C137_violated_utf8 :
    "é".toUTF8.toList = [195, 169] ∧
    readLine (nmLine 17 false false t!"catalog" (Sym.type false nmChar ⟨[], -1, [], [195 - 256, 169 - 256], [], []⟩)) =
      none ∧
    readLine (nmLine 17 false false t!"catalog" (Sym.type false nmChar ⟨[], -1, [], [195, 169], [], []⟩)) =
      some (some (.message ⟨[195, 169], [], -1, [], [], []⟩)) ∧
    "é".toList.map Char.toNat = [233] := by
  refine ⟨by decide +kernel, by decide +kernel, ?_, by decide +kernel⟩
  exact C137_message_partial 17 false false ⟨[], -1, [], [195, 169], [], []⟩
    ⟨by simp, by simp, ⟨by decide, by decide⟩, by simp, by simp⟩

/-- The definition written for a message, whose symbol can be read, is that of the catalog function of
exactly the type of the symbol, whichever way the demangler writes types. -/
theorem C138_defines (n : Nat) (long gap : Bool) (m : Sym) (h : m.Readable) :
    ∃ e, readLine (nmLine n long gap t!"catalog" (m.type gap nmChar)) = some (some e) ∧
      e.defines = t!"template<> auto catalog<" ++ m.type false cppChar ++ t!">() -> string_id {" := by
  refine ⟨_, C137_message_partial n long gap m h, ?_⟩
  have := toCpp_eq h
  rw [Sym.read] at this
  rw [Entry.defines, this]

@[inherit_doc C138_defines]
theorem C138_defines_module (n : Nat) (long gap : Bool) (m : ModSym) (hs : ∀ c ∈ m.suffix, c.isAlpha = true)
    (ht : Plain m.text) :
    ∃ e, readLine (nmLine n long gap t!"module" (m.type gap nmChar)) = some (some e) ∧
      e.defines = t!"template<> auto module<" ++ m.type false cppChar ++ t!">() -> module_id {" := by
  refine ⟨_, C137_module_partial n long gap m hs ht, ?_⟩
  rw [Entry.defines, Module.toCpp]
  simp only [castChars_eq ht]
  rw [ModSym.type, tmpl_false, tmpl_false, strType, tmpl_false, commas_one, commas_cons, commas_cons, commas_one, dec_eq]
  simp

example : sample.type false cppChar = t!"sc::message<sc::undefined<sc::args<std::pair<int, A<B> >, int>, 5u, sc::string<static_cast<char>(123), static_cast<char>(125)>, sc::tags<sc::tag<sc::string<static_cast<char>(97)>, sc::string<static_cast<char>(98), static_cast<char>(99)>>>, sc::named_args<sc::named_arg<sc::string<static_cast<char>(120)>, 0, 1>>>>" := by
  decide +kernel

end Verif.Symbols
