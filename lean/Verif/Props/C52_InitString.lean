import Verif.Wire.Replies
/-
C52. The initialisation string may contain any text: false of the code for characters outside ASCII (sockets.py:379-384
sends `len(pars)`, the number of characters, in front of the UTF-8 bytes).
-/
namespace Verif.Wire

/-- For every ASCII string the driver receives the replica index and the string, and nothing is left over. -/
theorem init_ascii_partial (rid : Int) (pars : String) (h1 : -2 ^ 31 ≤ rid) (h2 : rid < 2 ^ 31)
    (hl : pars.length < 2 ^ 31) (hx : Ascii pars) (c : Conn UInt8) (hp : Pieces c) (ht : timeouts c = 0) (rest : Bytes)
    (hb : bytes c = initData rid pars ++ rest) :
    ∃ c', drvInit c = (.ok (rid, utf8 pars), c') ∧ bytes c' = rest := by
  have key : DReads drvInit (initData rid pars) (rid, utf8 pars) := by
    refine (dreads_i32 rid h1 h2).bind ((dreads_i32 _ (by omega) (by omega)).bind ((dreads_recv _ ?_).map rfl))
    rw [(utf8_length_iff _).2 hx]; simp
  rcases (key c hp).1 rest hb with ⟨c', h1, h2, _⟩ | ⟨h, _⟩
  · exact ⟨c', h1, h2⟩
  · omega

/-- For every string with a character outside ASCII the driver receives a proper prefix and the rest of the string is left
in front of the next message. -/
theorem init_nonascii_desync (rid : Int) (pars : String) (h1 : -2 ^ 31 ≤ rid) (h2 : rid < 2 ^ 31)
    (hl : pars.length < 2 ^ 31) (hx : ¬ Ascii pars) (c : Conn UInt8) (hp : Pieces c) (ht : timeouts c = 0) (rest : Bytes)
    (hb : bytes c = initData rid pars ++ rest) :
    ∃ c' got left, drvInit c = (.ok (rid, got), c') ∧ utf8 pars = got ++ left ∧ left ≠ [] ∧ bytes c' = left ++ rest := by
  have hlt : pars.length < (utf8 pars).length := by
    have h1 := utf8_length_le pars
    have h2 : (utf8 pars).length ≠ pars.length := fun h => hx ((utf8_length_iff _).1 h)
    omega
  have key : DReads drvInit (encI32 rid ++ (encI32 pars.length ++ (utf8 pars).take pars.length))
      (rid, (utf8 pars).take pars.length) := by
    refine (dreads_i32 rid h1 h2).bind ((dreads_i32 _ (by omega) (by omega)).bind ((dreads_recv _ ?_).map rfl))
    simp; omega
  have hsplit : initData rid pars ++ rest = (encI32 rid ++ (encI32 pars.length ++ (utf8 pars).take pars.length)) ++
      ((utf8 pars).drop pars.length ++ rest) := by
    simp only [initData, List.append_assoc]
    rw [← List.append_assoc (List.take _ _), List.take_append_drop]
  rcases (key c hp).1 _ (hb.trans hsplit) with ⟨c', h1, h2, _⟩ | ⟨h, _⟩
  · refine ⟨c', _, _, h1, (List.take_append_drop pars.length _).symm, ?_, h2⟩
    intro h
    have := congrArg List.length h
    simp at this; omega
  · omega

/-- A concrete run: after `INIT` with "é" one byte of it precedes the next header. -/
theorem init_nonascii_witness :
    drvInit [.data (initData 0 "é" ++ message "posdata")] = (.ok (0, [0xC3]), [.data (0xA9 :: message "posdata")]) := by
  decide +kernel

example : Ascii "batch_size:4" := by unfold Ascii; decide

end Verif.Wire
