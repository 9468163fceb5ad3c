import Verif.Spec.TomlDoc
import Verif.Proofs.TomlValues
/-!
# The documents of TOML are read as what they denote
-/
namespace Tomlkit
open _root_.Spec Tomlkit.Spec

theorem lineEnd_eol {nl t : Str} (h : LineEnd nl t) : Eol nl t := by
  rcases h with (rfl | rfl) | ⟨rfl, rfl⟩
  · exact .lf t
  · exact .crlf t
  · exact .eof

theorem commentText_cmt {cm : Str} (h : CommentText cm) : Cmt cm := by
  rcases h with rfl | ⟨s, rfl, h⟩
  · exact .inl rfl
  · exact .inr ⟨s, rfl, fun x hx => notControl_comment (h x hx)⟩

theorem lines_text {text tail : Str} {L : List (List Str × PyVal)} (h : LinesText text tail L) : Lines text tail L := by
  induction h with
  | stop tail h =>
    refine .stop ?_
    rcases h with h | h
    · exact .inl h
    · cases tail with
      | nil => cases h
      | cons c r => cases h; exact .inr ⟨r, rfl⟩
  | indent b tail hb h =>
    cases tail with
    | nil => cases h
    | cons c r => cases h; exact .ind (blanks_spaces hb) ⟨r, rfl⟩
  | blank b nl t tail L hb hn hne _ ih => exact .blank (blanks_spaces hb) (lineEnd_eol hn) hne ih
  | comment b cm nl t tail L hb hc hn _ ih => exact .cmt (blanks_spaces hb) (fun x hx => notControl_comment (hc x hx)) (lineEnd_eol hn) ih
  | pair key path b1 e v b2 cm nl t tail L hk h1 he h2 hc hn _ ih =>
    obtain ⟨b0, K, rfl, h0, hK⟩ := dotted_split hk
    have := Lines.kv (blanks_spaces h0) hK (blanks_spaces h1) (reads_text he) (blanks_spaces h2) (commentText_cmt hc) (lineEnd_eol hn) ih
    simpa using this

mutual
theorem txt_table : ∀ {av : Option Str} {P : List Str} {text tail : Str} {l : List PyPair}, TableText av P text tail l →
    Txt .tab av P [] text tail (.dict l)
  | _, _, _, _, _, .mk _ _ _ _ _ _ _ _ h1 hn h2 hd => .tab (lines_text h1) hn (txt_subs h2) hd
theorem txt_subs : ∀ {av : Option Str} {p q : List Str} {text tail : Str} {l : List PyPair}, SubTables av p q text tail l →
    Txt .subs av p q text tail (.dict l)
  | _, _, _, _, _, _, .none .. => .none
  | _, _, _, _, _, _, .table _ _ _ _ _ _ _ _ _ _ hh h1 h2 hk => by
    obtain ⟨key, _, b, cm, nl, t, g1, g2, g3, g4⟩ := hh
    exact .table (headReads_text g1) (blanks_spaces g2) (commentText_cmt g3) (lineEnd_eol g4) (txt_table h1) (txt_subs h2) hk
  | _, _, _, _, _, _, .implicit _ _ _ _ _ _ _ _ _ h1 hne h2 hk => .super (txt_subs h1) hne (txt_subs h2) hk
  | _, _, _, _, _, _, .array _ _ _ _ _ _ _ _ _ _ _ _ hh hq h1 h2 h3 hk => by
    obtain ⟨key, _, b, cm, nl, t, g1, g2, g3, g4⟩ := hh
    exact .aot (headReads_text g1) (blanks_spaces g2) (commentText_cmt g3) (lineEnd_eol g4) hq (txt_table h1) (txt_elems h2) (txt_subs h3) hk
theorem txt_elems : ∀ {av : Option Str} {P : List Str} {text tail : Str} {ls : List PyVal}, MoreElements av P text tail ls →
    Txt .elems av P [] text tail (.list ls)
  | _, _, _, _, _, .nil .. => .nil
  | _, _, _, _, _, .cons _ _ _ _ _ _ _ _ hh h1 h2 => by
    obtain ⟨key, _, b, cm, nl, t, g1, g2, g3, g4⟩ := hh
    exact .cons (headReads_text g1) (blanks_spaces g2) (commentText_cmt g3) (lineEnd_eol g4) (txt_table h1) (txt_elems h2)
end

theorem document_reads {text : Str} {l : List PyPair} (h : DocumentText text l) :
    ∃ c, parse text = .ok c ∧ c.dict = l.map PyPair.key ∧ MeansIn l c ∧ c.WF := by
  obtain ⟨_, _, _, t1, _, L, l1, l2, h1, hn, h2, hd⟩ := h
  exact doc_reads (lines_text h1) hn (txt_subs h2) hd

end Tomlkit
