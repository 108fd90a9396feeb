import Verif.PreTokenizers.Model

/-!
# The table of `get_script`

Generated from `tokenizers/src/pre_tokenizers/unicode_scripts/scripts.rs` by a script that copies the arms of the `match`
one by one, in the order of the file. `Script::X` for a script `X` that the code does not single out is `.other n`, where
`n` is the position of `X` in the declaration of the enumeration (`scripts.rs:6-145`); `scriptNames` lists it.
-/

namespace Tok.Scripts

/-- `enum Script` (`scripts.rs:6-145`): the names of the variants in the order of their declaration. -/
def scriptNames : List String := [
  "Any", "Adlam", "Ahom", "AnatolianHieroglyphs", "Arabic", "Armenian",
  "Avestan", "Balinese", "Bamum", "BassaVah", "Batak", "Bengali",
  "Bhaiksuki", "Bopomofo", "Brahmi", "Braille", "Buginese", "Buhid",
  "CanadianAboriginal", "Carian", "CaucasianAlbanian", "Chakma", "Cham", "Cherokee",
  "Common", "Coptic", "Cuneiform", "Cypriot", "Cyrillic", "Deseret",
  "Devanagari", "Duployan", "EgyptianHieroglyphs", "Elbasan", "Ethiopic", "Georgian",
  "Glagolitic", "Gothic", "Grantha", "Greek", "Gujarati", "Gurmukhi",
  "Han", "Hangul", "Hanunoo", "Hatran", "Hebrew", "Hiragana",
  "ImperialAramaic", "Inherited", "InscriptionalPahlavi", "InscriptionalParthian", "Javanese", "Kaithi",
  "Kannada", "Katakana", "KayahLi", "Kharoshthi", "Khmer", "Khojki",
  "Khudawadi", "Lao", "Latin", "Lepcha", "Limbu", "LinearA",
  "LinearB", "Lisu", "Lycian", "Lydian", "Mahajani", "Malayalam",
  "Mandaic", "Manichaean", "Marchen", "MeeteiMayek", "MendeKikakui", "MeroiticCursive",
  "MeroiticHieroglyphs", "Miao", "Modi", "Mongolian", "Mro", "Multani",
  "Myanmar", "Nabataean", "NewTaiLue", "Newa", "Nko", "Ogham",
  "OlChiki", "OldHungarian", "OldItalic", "OldNorthArabian", "OldPermic", "OldPersian",
  "OldSouthArabian", "OldTurkic", "Oriya", "Osage", "Osmanya", "PahawhHmong",
  "Palmyrene", "PauCinHau", "PhagsPa", "Phoenician", "PsalterPahlavi", "Rejang",
  "Runic", "Samaritan", "Saurashtra", "Sharada", "Shavian", "Siddham",
  "SignWriting", "Sinhala", "SoraSompeng", "Sundanese", "SylotiNagri", "Syriac",
  "Tagalog", "Tagbanwa", "TaiLe", "TaiTham", "TaiViet", "Takri",
  "Tamil", "Tangut", "Telugu", "Thaana", "Thai", "Tibetan",
  "Tifinagh", "Tirhuta", "Ugaritic", "Vai", "WarangCiti", "Yi"]

/-- `get_script` (`scripts.rs:149-268`): the arms, first and last code point and script. -/
def arms0 : List (Nat × Nat × Script) := [
  (0x0, 0x1F, .other 24), (0x20, 0x20, .other 24), (0x21, 0x23, .other 24), (0x24, 0x24, .other 24),
  (0x25, 0x27, .other 24), (0x28, 0x28, .other 24), (0x29, 0x29, .other 24), (0x2A, 0x2A, .other 24),
  (0x2B, 0x2B, .other 24), (0x2C, 0x2C, .other 24), (0x2D, 0x2D, .other 24), (0x2E, 0x2F, .other 24),
  (0x30, 0x39, .other 24), (0x3A, 0x3B, .other 24), (0x3C, 0x3E, .other 24), (0x3F, 0x40, .other 24),
  (0x5B, 0x5B, .other 24), (0x5C, 0x5C, .other 24), (0x5D, 0x5D, .other 24), (0x5E, 0x5E, .other 24),
  (0x5F, 0x5F, .other 24), (0x60, 0x60, .other 24), (0x7B, 0x7B, .other 24), (0x7C, 0x7C, .other 24),
  (0x7D, 0x7D, .other 24), (0x7E, 0x7E, .other 24), (0x7F, 0x9F, .other 24), (0xA0, 0xA0, .other 24),
  (0xA1, 0xA1, .other 24), (0xA2, 0xA5, .other 24), (0xA6, 0xA6, .other 24), (0xA7, 0xA7, .other 24),
  (0xA8, 0xA8, .other 24), (0xA9, 0xA9, .other 24), (0xAB, 0xAB, .other 24), (0xAC, 0xAC, .other 24),
  (0xAD, 0xAD, .other 24), (0xAE, 0xAE, .other 24), (0xAF, 0xAF, .other 24), (0xB0, 0xB0, .other 24),
  (0xB1, 0xB1, .other 24), (0xB2, 0xB3, .other 24), (0xB4, 0xB4, .other 24), (0xB5, 0xB5, .other 24),
  (0xB6, 0xB7, .other 24), (0xB8, 0xB8, .other 24), (0xB9, 0xB9, .other 24), (0xBB, 0xBB, .other 24),
  (0xBC, 0xBE, .other 24), (0xBF, 0xBF, .other 24), (0xD7, 0xD7, .other 24), (0xF7, 0xF7, .other 24),
  (0x2B9, 0x2C1, .other 24), (0x2C2, 0x2C5, .other 24), (0x2C6, 0x2D1, .other 24), (0x2D2, 0x2DF, .other 24),
  (0x2E5, 0x2E9, .other 24), (0x2EC, 0x2EC, .other 24), (0x2ED, 0x2ED, .other 24), (0x2EE, 0x2EE, .other 24),
  (0x2EF, 0x2FF, .other 24), (0x374, 0x374, .other 24), (0x37E, 0x37E, .other 24), (0x385, 0x385, .other 24),
  (0x387, 0x387, .other 24), (0x589, 0x589, .other 24), (0x605, 0x605, .other 24), (0x60C, 0x60C, .other 24),
  (0x61B, 0x61B, .other 24), (0x61C, 0x61C, .other 24), (0x61F, 0x61F, .other 24), (0x640, 0x640, .other 24),
  (0x6DD, 0x6DD, .other 24), (0x8E2, 0x8E2, .other 24), (0x964, 0x965, .other 24), (0xE3F, 0xE3F, .other 24),
  (0xFD5, 0xFD8, .other 24), (0x10FB, 0x10FB, .other 24), (0x16EB, 0x16ED, .other 24), (0x1735, 0x1736, .other 24),
  (0x1802, 0x1803, .other 24), (0x1805, 0x1805, .other 24), (0x1CD3, 0x1CD3, .other 24), (0x1CE1, 0x1CE1, .other 24),
  (0x1CE9, 0x1CEC, .other 24), (0x1CEE, 0x1CF1, .other 24), (0x1CF2, 0x1CF3, .other 24), (0x1CF5, 0x1CF6, .other 24),
  (0x2000, 0x200A, .other 24), (0x200B, 0x200B, .other 24), (0x200E, 0x200F, .other 24), (0x2010, 0x2015, .other 24),
  (0x2016, 0x2017, .other 24), (0x2018, 0x2018, .other 24), (0x2019, 0x2019, .other 24), (0x201A, 0x201A, .other 24),
  (0x201B, 0x201C, .other 24), (0x201D, 0x201D, .other 24), (0x201E, 0x201E, .other 24), (0x201F, 0x201F, .other 24),
  (0x2020, 0x2027, .other 24), (0x2028, 0x2028, .other 24), (0x2029, 0x2029, .other 24), (0x202A, 0x202E, .other 24),
  (0x202F, 0x202F, .other 24), (0x2030, 0x2038, .other 24), (0x2039, 0x2039, .other 24), (0x203A, 0x203A, .other 24),
  (0x203B, 0x203E, .other 24), (0x203F, 0x2040, .other 24), (0x2041, 0x2043, .other 24), (0x2044, 0x2044, .other 24),
  (0x2045, 0x2045, .other 24), (0x2046, 0x2046, .other 24), (0x2047, 0x2051, .other 24), (0x2052, 0x2052, .other 24),
  (0x2053, 0x2053, .other 24), (0x2054, 0x2054, .other 24), (0x2055, 0x205E, .other 24), (0x205F, 0x205F, .other 24)]

/-- `get_script` (`scripts.rs:269-388`): the arms, first and last code point and script. -/
def arms1 : List (Nat × Nat × Script) := [
  (0x2060, 0x2064, .other 24), (0x2066, 0x206F, .other 24), (0x2070, 0x2070, .other 24), (0x2074, 0x2079, .other 24),
  (0x207A, 0x207C, .other 24), (0x207D, 0x207D, .other 24), (0x207E, 0x207E, .other 24), (0x2080, 0x2089, .other 24),
  (0x208A, 0x208C, .other 24), (0x208D, 0x208D, .other 24), (0x208E, 0x208E, .other 24), (0x20A0, 0x20BE, .other 24),
  (0x2100, 0x2101, .other 24), (0x2102, 0x2102, .other 24), (0x2103, 0x2106, .other 24), (0x2107, 0x2107, .other 24),
  (0x2108, 0x2109, .other 24), (0x210A, 0x2113, .other 24), (0x2114, 0x2114, .other 24), (0x2115, 0x2115, .other 24),
  (0x2116, 0x2117, .other 24), (0x2118, 0x2118, .other 24), (0x2119, 0x211D, .other 24), (0x211E, 0x2123, .other 24),
  (0x2124, 0x2124, .other 24), (0x2125, 0x2125, .other 24), (0x2127, 0x2127, .other 24), (0x2128, 0x2128, .other 24),
  (0x2129, 0x2129, .other 24), (0x212C, 0x212D, .other 24), (0x212E, 0x212E, .other 24), (0x212F, 0x2131, .other 24),
  (0x2133, 0x2134, .other 24), (0x2135, 0x2138, .other 24), (0x2139, 0x2139, .other 24), (0x213A, 0x213B, .other 24),
  (0x213C, 0x213F, .other 24), (0x2140, 0x2144, .other 24), (0x2145, 0x2149, .other 24), (0x214A, 0x214A, .other 24),
  (0x214B, 0x214B, .other 24), (0x214C, 0x214D, .other 24), (0x214F, 0x214F, .other 24), (0x2150, 0x215F, .other 24),
  (0x2189, 0x2189, .other 24), (0x218A, 0x218B, .other 24), (0x2190, 0x2194, .other 24), (0x2195, 0x2199, .other 24),
  (0x219A, 0x219B, .other 24), (0x219C, 0x219F, .other 24), (0x21A0, 0x21A0, .other 24), (0x21A1, 0x21A2, .other 24),
  (0x21A3, 0x21A3, .other 24), (0x21A4, 0x21A5, .other 24), (0x21A6, 0x21A6, .other 24), (0x21A7, 0x21AD, .other 24),
  (0x21AE, 0x21AE, .other 24), (0x21AF, 0x21CD, .other 24), (0x21CE, 0x21CF, .other 24), (0x21D0, 0x21D1, .other 24),
  (0x21D2, 0x21D2, .other 24), (0x21D3, 0x21D3, .other 24), (0x21D4, 0x21D4, .other 24), (0x21D5, 0x21F3, .other 24),
  (0x21F4, 0x22FF, .other 24), (0x2300, 0x2307, .other 24), (0x2308, 0x2308, .other 24), (0x2309, 0x2309, .other 24),
  (0x230A, 0x230A, .other 24), (0x230B, 0x230B, .other 24), (0x230C, 0x231F, .other 24), (0x2320, 0x2321, .other 24),
  (0x2322, 0x2328, .other 24), (0x2329, 0x2329, .other 24), (0x232A, 0x232A, .other 24), (0x232B, 0x237B, .other 24),
  (0x237C, 0x237C, .other 24), (0x237D, 0x239A, .other 24), (0x239B, 0x23B3, .other 24), (0x23B4, 0x23DB, .other 24),
  (0x23DC, 0x23E1, .other 24), (0x23E2, 0x23FE, .other 24), (0x2400, 0x2426, .other 24), (0x2440, 0x244A, .other 24),
  (0x2460, 0x249B, .other 24), (0x249C, 0x24E9, .other 24), (0x24EA, 0x24FF, .other 24), (0x2500, 0x25B6, .other 24),
  (0x25B7, 0x25B7, .other 24), (0x25B8, 0x25C0, .other 24), (0x25C1, 0x25C1, .other 24), (0x25C2, 0x25F7, .other 24),
  (0x25F8, 0x25FF, .other 24), (0x2600, 0x266E, .other 24), (0x266F, 0x266F, .other 24), (0x2670, 0x2767, .other 24),
  (0x2768, 0x2768, .other 24), (0x2769, 0x2769, .other 24), (0x276A, 0x276A, .other 24), (0x276B, 0x276B, .other 24),
  (0x276C, 0x276C, .other 24), (0x276D, 0x276D, .other 24), (0x276E, 0x276E, .other 24), (0x276F, 0x276F, .other 24),
  (0x2770, 0x2770, .other 24), (0x2771, 0x2771, .other 24), (0x2772, 0x2772, .other 24), (0x2773, 0x2773, .other 24),
  (0x2774, 0x2774, .other 24), (0x2775, 0x2775, .other 24), (0x2776, 0x2793, .other 24), (0x2794, 0x27BF, .other 24),
  (0x27C0, 0x27C4, .other 24), (0x27C5, 0x27C5, .other 24), (0x27C6, 0x27C6, .other 24), (0x27C7, 0x27E5, .other 24),
  (0x27E6, 0x27E6, .other 24), (0x27E7, 0x27E7, .other 24), (0x27E8, 0x27E8, .other 24), (0x27E9, 0x27E9, .other 24)]

/-- `get_script` (`scripts.rs:389-508`): the arms, first and last code point and script. -/
def arms2 : List (Nat × Nat × Script) := [
  (0x27EA, 0x27EA, .other 24), (0x27EB, 0x27EB, .other 24), (0x27EC, 0x27EC, .other 24), (0x27ED, 0x27ED, .other 24),
  (0x27EE, 0x27EE, .other 24), (0x27EF, 0x27EF, .other 24), (0x27F0, 0x27FF, .other 24), (0x2900, 0x2982, .other 24),
  (0x2983, 0x2983, .other 24), (0x2984, 0x2984, .other 24), (0x2985, 0x2985, .other 24), (0x2986, 0x2986, .other 24),
  (0x2987, 0x2987, .other 24), (0x2988, 0x2988, .other 24), (0x2989, 0x2989, .other 24), (0x298A, 0x298A, .other 24),
  (0x298B, 0x298B, .other 24), (0x298C, 0x298C, .other 24), (0x298D, 0x298D, .other 24), (0x298E, 0x298E, .other 24),
  (0x298F, 0x298F, .other 24), (0x2990, 0x2990, .other 24), (0x2991, 0x2991, .other 24), (0x2992, 0x2992, .other 24),
  (0x2993, 0x2993, .other 24), (0x2994, 0x2994, .other 24), (0x2995, 0x2995, .other 24), (0x2996, 0x2996, .other 24),
  (0x2997, 0x2997, .other 24), (0x2998, 0x2998, .other 24), (0x2999, 0x29D7, .other 24), (0x29D8, 0x29D8, .other 24),
  (0x29D9, 0x29D9, .other 24), (0x29DA, 0x29DA, .other 24), (0x29DB, 0x29DB, .other 24), (0x29DC, 0x29FB, .other 24),
  (0x29FC, 0x29FC, .other 24), (0x29FD, 0x29FD, .other 24), (0x29FE, 0x2AFF, .other 24), (0x2B00, 0x2B2F, .other 24),
  (0x2B30, 0x2B44, .other 24), (0x2B45, 0x2B46, .other 24), (0x2B47, 0x2B4C, .other 24), (0x2B4D, 0x2B73, .other 24),
  (0x2B76, 0x2B95, .other 24), (0x2B98, 0x2BB9, .other 24), (0x2BBD, 0x2BC8, .other 24), (0x2BCA, 0x2BD1, .other 24),
  (0x2BEC, 0x2BEF, .other 24), (0x2E00, 0x2E01, .other 24), (0x2E02, 0x2E02, .other 24), (0x2E03, 0x2E03, .other 24),
  (0x2E04, 0x2E04, .other 24), (0x2E05, 0x2E05, .other 24), (0x2E06, 0x2E08, .other 24), (0x2E09, 0x2E09, .other 24),
  (0x2E0A, 0x2E0A, .other 24), (0x2E0B, 0x2E0B, .other 24), (0x2E0C, 0x2E0C, .other 24), (0x2E0D, 0x2E0D, .other 24),
  (0x2E0E, 0x2E16, .other 24), (0x2E17, 0x2E17, .other 24), (0x2E18, 0x2E19, .other 24), (0x2E1A, 0x2E1A, .other 24),
  (0x2E1B, 0x2E1B, .other 24), (0x2E1C, 0x2E1C, .other 24), (0x2E1D, 0x2E1D, .other 24), (0x2E1E, 0x2E1F, .other 24),
  (0x2E20, 0x2E20, .other 24), (0x2E21, 0x2E21, .other 24), (0x2E22, 0x2E22, .other 24), (0x2E23, 0x2E23, .other 24),
  (0x2E24, 0x2E24, .other 24), (0x2E25, 0x2E25, .other 24), (0x2E26, 0x2E26, .other 24), (0x2E27, 0x2E27, .other 24),
  (0x2E28, 0x2E28, .other 24), (0x2E29, 0x2E29, .other 24), (0x2E2A, 0x2E2E, .other 24), (0x2E2F, 0x2E2F, .other 24),
  (0x2E30, 0x2E39, .other 24), (0x2E3A, 0x2E3B, .other 24), (0x2E3C, 0x2E3F, .other 24), (0x2E40, 0x2E40, .other 24),
  (0x2E41, 0x2E41, .other 24), (0x2E42, 0x2E42, .other 24), (0x2E43, 0x2E44, .other 24), (0x2FF0, 0x2FFB, .other 24),
  (0x3000, 0x3000, .other 24), (0x3001, 0x3003, .other 24), (0x3004, 0x3004, .other 24), (0x3006, 0x3006, .other 24),
  (0x3008, 0x3008, .other 24), (0x3009, 0x3009, .other 24), (0x300A, 0x300A, .other 24), (0x300B, 0x300B, .other 24),
  (0x300C, 0x300C, .other 24), (0x300D, 0x300D, .other 24), (0x300E, 0x300E, .other 24), (0x300F, 0x300F, .other 24),
  (0x3010, 0x3010, .other 24), (0x3011, 0x3011, .other 24), (0x3012, 0x3013, .other 24), (0x3014, 0x3014, .other 24),
  (0x3015, 0x3015, .other 24), (0x3016, 0x3016, .other 24), (0x3017, 0x3017, .other 24), (0x3018, 0x3018, .other 24),
  (0x3019, 0x3019, .other 24), (0x301A, 0x301A, .other 24), (0x301B, 0x301B, .other 24), (0x301C, 0x301C, .other 24),
  (0x301D, 0x301D, .other 24), (0x301E, 0x301F, .other 24), (0x3020, 0x3020, .other 24), (0x3030, 0x3030, .other 24),
  (0x3031, 0x3035, .other 24), (0x3036, 0x3037, .other 24), (0x303C, 0x303C, .other 24), (0x303D, 0x303D, .other 24)]

/-- `get_script` (`scripts.rs:509-628`): the arms, first and last code point and script. -/
def arms3 : List (Nat × Nat × Script) := [
  (0x303E, 0x303F, .other 24), (0x309B, 0x309C, .other 24), (0x30A0, 0x30A0, .other 24), (0x30FB, 0x30FB, .other 24),
  (0x30FC, 0x30FC, .other 24), (0x3190, 0x3191, .other 24), (0x3192, 0x3195, .other 24), (0x3196, 0x319F, .other 24),
  (0x31C0, 0x31E3, .other 24), (0x3220, 0x3229, .other 24), (0x322A, 0x3247, .other 24), (0x3248, 0x324F, .other 24),
  (0x3250, 0x3250, .other 24), (0x3251, 0x325F, .other 24), (0x327F, 0x327F, .other 24), (0x3280, 0x3289, .other 24),
  (0x328A, 0x32B0, .other 24), (0x32B1, 0x32BF, .other 24), (0x32C0, 0x32CF, .other 24), (0x3358, 0x33FF, .other 24),
  (0x4DC0, 0x4DFF, .other 24), (0xA700, 0xA716, .other 24), (0xA717, 0xA71F, .other 24), (0xA720, 0xA721, .other 24),
  (0xA788, 0xA788, .other 24), (0xA789, 0xA78A, .other 24), (0xA830, 0xA835, .other 24), (0xA836, 0xA837, .other 24),
  (0xA838, 0xA838, .other 24), (0xA839, 0xA839, .other 24), (0xA92E, 0xA92E, .other 24), (0xA9CF, 0xA9CF, .other 24),
  (0xAB5B, 0xAB5B, .other 24), (0xFD3E, 0xFD3E, .other 24), (0xFD3F, 0xFD3F, .other 24), (0xFE10, 0xFE16, .other 24),
  (0xFE17, 0xFE17, .other 24), (0xFE18, 0xFE18, .other 24), (0xFE19, 0xFE19, .other 24), (0xFE30, 0xFE30, .other 24),
  (0xFE31, 0xFE32, .other 24), (0xFE33, 0xFE34, .other 24), (0xFE35, 0xFE35, .other 24), (0xFE36, 0xFE36, .other 24),
  (0xFE37, 0xFE37, .other 24), (0xFE38, 0xFE38, .other 24), (0xFE39, 0xFE39, .other 24), (0xFE3A, 0xFE3A, .other 24),
  (0xFE3B, 0xFE3B, .other 24), (0xFE3C, 0xFE3C, .other 24), (0xFE3D, 0xFE3D, .other 24), (0xFE3E, 0xFE3E, .other 24),
  (0xFE3F, 0xFE3F, .other 24), (0xFE40, 0xFE40, .other 24), (0xFE41, 0xFE41, .other 24), (0xFE42, 0xFE42, .other 24),
  (0xFE43, 0xFE43, .other 24), (0xFE44, 0xFE44, .other 24), (0xFE45, 0xFE46, .other 24), (0xFE47, 0xFE47, .other 24),
  (0xFE48, 0xFE48, .other 24), (0xFE49, 0xFE4C, .other 24), (0xFE4D, 0xFE4F, .other 24), (0xFE50, 0xFE52, .other 24),
  (0xFE54, 0xFE57, .other 24), (0xFE58, 0xFE58, .other 24), (0xFE59, 0xFE59, .other 24), (0xFE5A, 0xFE5A, .other 24),
  (0xFE5B, 0xFE5B, .other 24), (0xFE5C, 0xFE5C, .other 24), (0xFE5D, 0xFE5D, .other 24), (0xFE5E, 0xFE5E, .other 24),
  (0xFE5F, 0xFE61, .other 24), (0xFE62, 0xFE62, .other 24), (0xFE63, 0xFE63, .other 24), (0xFE64, 0xFE66, .other 24),
  (0xFE68, 0xFE68, .other 24), (0xFE69, 0xFE69, .other 24), (0xFE6A, 0xFE6B, .other 24), (0xFEFF, 0xFEFF, .other 24),
  (0xFF01, 0xFF03, .other 24), (0xFF04, 0xFF04, .other 24), (0xFF05, 0xFF07, .other 24), (0xFF08, 0xFF08, .other 24),
  (0xFF09, 0xFF09, .other 24), (0xFF0A, 0xFF0A, .other 24), (0xFF0B, 0xFF0B, .other 24), (0xFF0C, 0xFF0C, .other 24),
  (0xFF0D, 0xFF0D, .other 24), (0xFF0E, 0xFF0F, .other 24), (0xFF10, 0xFF19, .other 24), (0xFF1A, 0xFF1B, .other 24),
  (0xFF1C, 0xFF1E, .other 24), (0xFF1F, 0xFF20, .other 24), (0xFF3B, 0xFF3B, .other 24), (0xFF3C, 0xFF3C, .other 24),
  (0xFF3D, 0xFF3D, .other 24), (0xFF3E, 0xFF3E, .other 24), (0xFF3F, 0xFF3F, .other 24), (0xFF40, 0xFF40, .other 24),
  (0xFF5B, 0xFF5B, .other 24), (0xFF5C, 0xFF5C, .other 24), (0xFF5D, 0xFF5D, .other 24), (0xFF5E, 0xFF5E, .other 24),
  (0xFF5F, 0xFF5F, .other 24), (0xFF60, 0xFF60, .other 24), (0xFF61, 0xFF61, .other 24), (0xFF62, 0xFF62, .other 24),
  (0xFF63, 0xFF63, .other 24), (0xFF64, 0xFF65, .other 24), (0xFF70, 0xFF70, .other 24), (0xFF9E, 0xFF9F, .other 24),
  (0xFFE0, 0xFFE1, .other 24), (0xFFE2, 0xFFE2, .other 24), (0xFFE3, 0xFFE3, .other 24), (0xFFE4, 0xFFE4, .other 24),
  (0xFFE5, 0xFFE6, .other 24), (0xFFE8, 0xFFE8, .other 24), (0xFFE9, 0xFFEC, .other 24), (0xFFED, 0xFFEE, .other 24)]

/-- `get_script` (`scripts.rs:629-748`): the arms, first and last code point and script. -/
def arms4 : List (Nat × Nat × Script) := [
  (0xFFF9, 0xFFFB, .other 24), (0xFFFC, 0xFFFD, .other 24), (0x10100, 0x10102, .other 24),
  (0x10107, 0x10133, .other 24), (0x10137, 0x1013F, .other 24), (0x10190, 0x1019B, .other 24),
  (0x101D0, 0x101FC, .other 24), (0x102E1, 0x102FB, .other 24), (0x1BCA0, 0x1BCA3, .other 24),
  (0x1D000, 0x1D0F5, .other 24), (0x1D100, 0x1D126, .other 24), (0x1D129, 0x1D164, .other 24),
  (0x1D165, 0x1D166, .other 24), (0x1D16A, 0x1D16C, .other 24), (0x1D16D, 0x1D172, .other 24),
  (0x1D173, 0x1D17A, .other 24), (0x1D183, 0x1D184, .other 24), (0x1D18C, 0x1D1A9, .other 24),
  (0x1D1AE, 0x1D1E8, .other 24), (0x1D300, 0x1D356, .other 24), (0x1D360, 0x1D371, .other 24),
  (0x1D400, 0x1D454, .other 24), (0x1D456, 0x1D49C, .other 24), (0x1D49E, 0x1D49F, .other 24),
  (0x1D4A2, 0x1D4A2, .other 24), (0x1D4A5, 0x1D4A6, .other 24), (0x1D4A9, 0x1D4AC, .other 24),
  (0x1D4AE, 0x1D4B9, .other 24), (0x1D4BB, 0x1D4BB, .other 24), (0x1D4BD, 0x1D4C3, .other 24),
  (0x1D4C5, 0x1D505, .other 24), (0x1D507, 0x1D50A, .other 24), (0x1D50D, 0x1D514, .other 24),
  (0x1D516, 0x1D51C, .other 24), (0x1D51E, 0x1D539, .other 24), (0x1D53B, 0x1D53E, .other 24),
  (0x1D540, 0x1D544, .other 24), (0x1D546, 0x1D546, .other 24), (0x1D54A, 0x1D550, .other 24),
  (0x1D552, 0x1D6A5, .other 24), (0x1D6A8, 0x1D6C0, .other 24), (0x1D6C1, 0x1D6C1, .other 24),
  (0x1D6C2, 0x1D6DA, .other 24), (0x1D6DB, 0x1D6DB, .other 24), (0x1D6DC, 0x1D6FA, .other 24),
  (0x1D6FB, 0x1D6FB, .other 24), (0x1D6FC, 0x1D714, .other 24), (0x1D715, 0x1D715, .other 24),
  (0x1D716, 0x1D734, .other 24), (0x1D735, 0x1D735, .other 24), (0x1D736, 0x1D74E, .other 24),
  (0x1D74F, 0x1D74F, .other 24), (0x1D750, 0x1D76E, .other 24), (0x1D76F, 0x1D76F, .other 24),
  (0x1D770, 0x1D788, .other 24), (0x1D789, 0x1D789, .other 24), (0x1D78A, 0x1D7A8, .other 24),
  (0x1D7A9, 0x1D7A9, .other 24), (0x1D7AA, 0x1D7C2, .other 24), (0x1D7C3, 0x1D7C3, .other 24),
  (0x1D7C4, 0x1D7CB, .other 24), (0x1D7CE, 0x1D7FF, .other 24), (0x1F000, 0x1F02B, .other 24),
  (0x1F030, 0x1F093, .other 24), (0x1F0A0, 0x1F0AE, .other 24), (0x1F0B1, 0x1F0BF, .other 24),
  (0x1F0C1, 0x1F0CF, .other 24), (0x1F0D1, 0x1F0F5, .other 24), (0x1F100, 0x1F10C, .other 24),
  (0x1F110, 0x1F12E, .other 24), (0x1F130, 0x1F16B, .other 24), (0x1F170, 0x1F1AC, .other 24),
  (0x1F1E6, 0x1F1FF, .other 24), (0x1F201, 0x1F202, .other 24), (0x1F210, 0x1F23B, .other 24),
  (0x1F240, 0x1F248, .other 24), (0x1F250, 0x1F251, .other 24), (0x1F300, 0x1F3FA, .other 24),
  (0x1F3FB, 0x1F3FF, .other 24), (0x1F400, 0x1F6D2, .other 24), (0x1F6E0, 0x1F6EC, .other 24),
  (0x1F6F0, 0x1F6F6, .other 24), (0x1F700, 0x1F773, .other 24), (0x1F780, 0x1F7D4, .other 24),
  (0x1F800, 0x1F80B, .other 24), (0x1F810, 0x1F847, .other 24), (0x1F850, 0x1F859, .other 24),
  (0x1F860, 0x1F887, .other 24), (0x1F890, 0x1F8AD, .other 24), (0x1F910, 0x1F91E, .other 24),
  (0x1F920, 0x1F927, .other 24), (0x1F930, 0x1F930, .other 24), (0x1F933, 0x1F93E, .other 24),
  (0x1F940, 0x1F94B, .other 24), (0x1F950, 0x1F95E, .other 24), (0x1F980, 0x1F991, .other 24),
  (0x1F9C0, 0x1F9C0, .other 24), (0xE0001, 0xE0001, .other 24), (0xE0020, 0xE007F, .other 24),
  (0x41, 0x5A, .other 62), (0x61, 0x7A, .other 62), (0xAA, 0xAA, .other 62), (0xBA, 0xBA, .other 62),
  (0xC0, 0xD6, .other 62), (0xD8, 0xF6, .other 62), (0xF8, 0x1BA, .other 62), (0x1BB, 0x1BB, .other 62),
  (0x1BC, 0x1BF, .other 62), (0x1C0, 0x1C3, .other 62), (0x1C4, 0x293, .other 62), (0x294, 0x294, .other 62),
  (0x295, 0x2AF, .other 62), (0x2B0, 0x2B8, .other 62), (0x2E0, 0x2E4, .other 62), (0x1D00, 0x1D25, .other 62),
  (0x1D2C, 0x1D5C, .other 62), (0x1D62, 0x1D65, .other 62), (0x1D6B, 0x1D77, .other 62), (0x1D79, 0x1D9A, .other 62),
  (0x1D9B, 0x1DBE, .other 62)]

/-- `get_script` (`scripts.rs:749-868`): the arms, first and last code point and script. -/
def arms5 : List (Nat × Nat × Script) := [
  (0x1E00, 0x1EFF, .other 62), (0x2071, 0x2071, .other 62), (0x207F, 0x207F, .other 62), (0x2090, 0x209C, .other 62),
  (0x212A, 0x212B, .other 62), (0x2132, 0x2132, .other 62), (0x214E, 0x214E, .other 62), (0x2160, 0x2182, .other 62),
  (0x2183, 0x2184, .other 62), (0x2185, 0x2188, .other 62), (0x2C60, 0x2C7B, .other 62), (0x2C7C, 0x2C7D, .other 62),
  (0x2C7E, 0x2C7F, .other 62), (0xA722, 0xA76F, .other 62), (0xA770, 0xA770, .other 62), (0xA771, 0xA787, .other 62),
  (0xA78B, 0xA78E, .other 62), (0xA78F, 0xA78F, .other 62), (0xA790, 0xA7AE, .other 62), (0xA7B0, 0xA7B7, .other 62),
  (0xA7F7, 0xA7F7, .other 62), (0xA7F8, 0xA7F9, .other 62), (0xA7FA, 0xA7FA, .other 62), (0xA7FB, 0xA7FF, .other 62),
  (0xAB30, 0xAB5A, .other 62), (0xAB5C, 0xAB5F, .other 62), (0xAB60, 0xAB64, .other 62), (0xFB00, 0xFB06, .other 62),
  (0xFF21, 0xFF3A, .other 62), (0xFF41, 0xFF5A, .other 62), (0x370, 0x373, .other 39), (0x375, 0x375, .other 39),
  (0x376, 0x377, .other 39), (0x37A, 0x37A, .other 39), (0x37B, 0x37D, .other 39), (0x37F, 0x37F, .other 39),
  (0x384, 0x384, .other 39), (0x386, 0x386, .other 39), (0x388, 0x38A, .other 39), (0x38C, 0x38C, .other 39),
  (0x38E, 0x3A1, .other 39), (0x3A3, 0x3E1, .other 39), (0x3F0, 0x3F5, .other 39), (0x3F6, 0x3F6, .other 39),
  (0x3F7, 0x3FF, .other 39), (0x1D26, 0x1D2A, .other 39), (0x1D5D, 0x1D61, .other 39), (0x1D66, 0x1D6A, .other 39),
  (0x1DBF, 0x1DBF, .other 39), (0x1F00, 0x1F15, .other 39), (0x1F18, 0x1F1D, .other 39), (0x1F20, 0x1F45, .other 39),
  (0x1F48, 0x1F4D, .other 39), (0x1F50, 0x1F57, .other 39), (0x1F59, 0x1F59, .other 39), (0x1F5B, 0x1F5B, .other 39),
  (0x1F5D, 0x1F5D, .other 39), (0x1F5F, 0x1F7D, .other 39), (0x1F80, 0x1FB4, .other 39), (0x1FB6, 0x1FBC, .other 39),
  (0x1FBD, 0x1FBD, .other 39), (0x1FBE, 0x1FBE, .other 39), (0x1FBF, 0x1FC1, .other 39), (0x1FC2, 0x1FC4, .other 39),
  (0x1FC6, 0x1FCC, .other 39), (0x1FCD, 0x1FCF, .other 39), (0x1FD0, 0x1FD3, .other 39), (0x1FD6, 0x1FDB, .other 39),
  (0x1FDD, 0x1FDF, .other 39), (0x1FE0, 0x1FEC, .other 39), (0x1FED, 0x1FEF, .other 39), (0x1FF2, 0x1FF4, .other 39),
  (0x1FF6, 0x1FFC, .other 39), (0x1FFD, 0x1FFE, .other 39), (0x2126, 0x2126, .other 39), (0xAB65, 0xAB65, .other 39),
  (0x10140, 0x10174, .other 39), (0x10175, 0x10178, .other 39), (0x10179, 0x10189, .other 39),
  (0x1018A, 0x1018B, .other 39), (0x1018C, 0x1018E, .other 39), (0x101A0, 0x101A0, .other 39),
  (0x1D200, 0x1D241, .other 39), (0x1D242, 0x1D244, .other 39), (0x1D245, 0x1D245, .other 39),
  (0x400, 0x481, .other 28), (0x482, 0x482, .other 28), (0x483, 0x484, .other 28), (0x487, 0x487, .other 28),
  (0x488, 0x489, .other 28), (0x48A, 0x52F, .other 28), (0x1C80, 0x1C88, .other 28), (0x1D2B, 0x1D2B, .other 28),
  (0x1D78, 0x1D78, .other 28), (0x2DE0, 0x2DFF, .other 28), (0xA640, 0xA66D, .other 28), (0xA66E, 0xA66E, .other 28),
  (0xA66F, 0xA66F, .other 28), (0xA670, 0xA672, .other 28), (0xA673, 0xA673, .other 28), (0xA674, 0xA67D, .other 28),
  (0xA67E, 0xA67E, .other 28), (0xA67F, 0xA67F, .other 28), (0xA680, 0xA69B, .other 28), (0xA69C, 0xA69D, .other 28),
  (0xA69E, 0xA69F, .other 28), (0xFE2E, 0xFE2F, .other 28), (0x531, 0x556, .other 5), (0x559, 0x559, .other 5),
  (0x55A, 0x55F, .other 5), (0x561, 0x587, .other 5), (0x58A, 0x58A, .other 5), (0x58D, 0x58E, .other 5),
  (0x58F, 0x58F, .other 5), (0xFB13, 0xFB17, .other 5), (0x591, 0x5BD, .other 46), (0x5BE, 0x5BE, .other 46),
  (0x5BF, 0x5BF, .other 46), (0x5C0, 0x5C0, .other 46), (0x5C1, 0x5C2, .other 46)]

/-- `get_script` (`scripts.rs:869-988`): the arms, first and last code point and script. -/
def arms6 : List (Nat × Nat × Script) := [
  (0x5C3, 0x5C3, .other 46), (0x5C4, 0x5C5, .other 46), (0x5C6, 0x5C6, .other 46), (0x5C7, 0x5C7, .other 46),
  (0x5D0, 0x5EA, .other 46), (0x5F0, 0x5F2, .other 46), (0x5F3, 0x5F4, .other 46), (0xFB1D, 0xFB1D, .other 46),
  (0xFB1E, 0xFB1E, .other 46), (0xFB1F, 0xFB28, .other 46), (0xFB29, 0xFB29, .other 46), (0xFB2A, 0xFB36, .other 46),
  (0xFB38, 0xFB3C, .other 46), (0xFB3E, 0xFB3E, .other 46), (0xFB40, 0xFB41, .other 46), (0xFB43, 0xFB44, .other 46),
  (0xFB46, 0xFB4F, .other 46), (0x600, 0x604, .other 4), (0x606, 0x608, .other 4), (0x609, 0x60A, .other 4),
  (0x60B, 0x60B, .other 4), (0x60D, 0x60D, .other 4), (0x60E, 0x60F, .other 4), (0x610, 0x61A, .other 4),
  (0x61E, 0x61E, .other 4), (0x620, 0x63F, .other 4), (0x641, 0x64A, .other 4), (0x656, 0x65F, .other 4),
  (0x660, 0x669, .other 4), (0x66A, 0x66D, .other 4), (0x66E, 0x66F, .other 4), (0x671, 0x6D3, .other 4),
  (0x6D4, 0x6D4, .other 4), (0x6D5, 0x6D5, .other 4), (0x6D6, 0x6DC, .other 4), (0x6DE, 0x6DE, .other 4),
  (0x6DF, 0x6E4, .other 4), (0x6E5, 0x6E6, .other 4), (0x6E7, 0x6E8, .other 4), (0x6E9, 0x6E9, .other 4),
  (0x6EA, 0x6ED, .other 4), (0x6EE, 0x6EF, .other 4), (0x6F0, 0x6F9, .other 4), (0x6FA, 0x6FC, .other 4),
  (0x6FD, 0x6FE, .other 4), (0x6FF, 0x6FF, .other 4), (0x750, 0x77F, .other 4), (0x8A0, 0x8B4, .other 4),
  (0x8B6, 0x8BD, .other 4), (0x8D4, 0x8E1, .other 4), (0x8E3, 0x8FF, .other 4), (0xFB50, 0xFBB1, .other 4),
  (0xFBB2, 0xFBC1, .other 4), (0xFBD3, 0xFD3D, .other 4), (0xFD50, 0xFD8F, .other 4), (0xFD92, 0xFDC7, .other 4),
  (0xFDF0, 0xFDFB, .other 4), (0xFDFC, 0xFDFC, .other 4), (0xFDFD, 0xFDFD, .other 4), (0xFE70, 0xFE74, .other 4),
  (0xFE76, 0xFEFC, .other 4), (0x10E60, 0x10E7E, .other 4), (0x1EE00, 0x1EE03, .other 4),
  (0x1EE05, 0x1EE1F, .other 4), (0x1EE21, 0x1EE22, .other 4), (0x1EE24, 0x1EE24, .other 4),
  (0x1EE27, 0x1EE27, .other 4), (0x1EE29, 0x1EE32, .other 4), (0x1EE34, 0x1EE37, .other 4),
  (0x1EE39, 0x1EE39, .other 4), (0x1EE3B, 0x1EE3B, .other 4), (0x1EE42, 0x1EE42, .other 4),
  (0x1EE47, 0x1EE47, .other 4), (0x1EE49, 0x1EE49, .other 4), (0x1EE4B, 0x1EE4B, .other 4),
  (0x1EE4D, 0x1EE4F, .other 4), (0x1EE51, 0x1EE52, .other 4), (0x1EE54, 0x1EE54, .other 4),
  (0x1EE57, 0x1EE57, .other 4), (0x1EE59, 0x1EE59, .other 4), (0x1EE5B, 0x1EE5B, .other 4),
  (0x1EE5D, 0x1EE5D, .other 4), (0x1EE5F, 0x1EE5F, .other 4), (0x1EE61, 0x1EE62, .other 4),
  (0x1EE64, 0x1EE64, .other 4), (0x1EE67, 0x1EE6A, .other 4), (0x1EE6C, 0x1EE72, .other 4),
  (0x1EE74, 0x1EE77, .other 4), (0x1EE79, 0x1EE7C, .other 4), (0x1EE7E, 0x1EE7E, .other 4),
  (0x1EE80, 0x1EE89, .other 4), (0x1EE8B, 0x1EE9B, .other 4), (0x1EEA1, 0x1EEA3, .other 4),
  (0x1EEA5, 0x1EEA9, .other 4), (0x1EEAB, 0x1EEBB, .other 4), (0x1EEF0, 0x1EEF1, .other 4),
  (0x700, 0x70D, .other 119), (0x70F, 0x70F, .other 119), (0x710, 0x710, .other 119), (0x711, 0x711, .other 119),
  (0x712, 0x72F, .other 119), (0x730, 0x74A, .other 119), (0x74D, 0x74F, .other 119), (0x780, 0x7A5, .other 129),
  (0x7A6, 0x7B0, .other 129), (0x7B1, 0x7B1, .other 129), (0x900, 0x902, .other 30), (0x903, 0x903, .other 30),
  (0x904, 0x939, .other 30), (0x93A, 0x93A, .other 30), (0x93B, 0x93B, .other 30), (0x93C, 0x93C, .other 30),
  (0x93D, 0x93D, .other 30), (0x93E, 0x940, .other 30), (0x941, 0x948, .other 30), (0x949, 0x94C, .other 30),
  (0x94D, 0x94D, .other 30), (0x94E, 0x94F, .other 30), (0x950, 0x950, .other 30), (0x953, 0x957, .other 30)]

/-- `get_script` (`scripts.rs:989-1108`): the arms, first and last code point and script. -/
def arms7 : List (Nat × Nat × Script) := [
  (0x958, 0x961, .other 30), (0x962, 0x963, .other 30), (0x966, 0x96F, .other 30), (0x970, 0x970, .other 30),
  (0x971, 0x971, .other 30), (0x972, 0x97F, .other 30), (0xA8E0, 0xA8F1, .other 30), (0xA8F2, 0xA8F7, .other 30),
  (0xA8F8, 0xA8FA, .other 30), (0xA8FB, 0xA8FB, .other 30), (0xA8FC, 0xA8FC, .other 30), (0xA8FD, 0xA8FD, .other 30),
  (0x980, 0x980, .other 11), (0x981, 0x981, .other 11), (0x982, 0x983, .other 11), (0x985, 0x98C, .other 11),
  (0x98F, 0x990, .other 11), (0x993, 0x9A8, .other 11), (0x9AA, 0x9B0, .other 11), (0x9B2, 0x9B2, .other 11),
  (0x9B6, 0x9B9, .other 11), (0x9BC, 0x9BC, .other 11), (0x9BD, 0x9BD, .other 11), (0x9BE, 0x9C0, .other 11),
  (0x9C1, 0x9C4, .other 11), (0x9C7, 0x9C8, .other 11), (0x9CB, 0x9CC, .other 11), (0x9CD, 0x9CD, .other 11),
  (0x9CE, 0x9CE, .other 11), (0x9D7, 0x9D7, .other 11), (0x9DC, 0x9DD, .other 11), (0x9DF, 0x9E1, .other 11),
  (0x9E2, 0x9E3, .other 11), (0x9E6, 0x9EF, .other 11), (0x9F0, 0x9F1, .other 11), (0x9F2, 0x9F3, .other 11),
  (0x9F4, 0x9F9, .other 11), (0x9FA, 0x9FA, .other 11), (0x9FB, 0x9FB, .other 11), (0xA01, 0xA02, .other 41),
  (0xA03, 0xA03, .other 41), (0xA05, 0xA0A, .other 41), (0xA0F, 0xA10, .other 41), (0xA13, 0xA28, .other 41),
  (0xA2A, 0xA30, .other 41), (0xA32, 0xA33, .other 41), (0xA35, 0xA36, .other 41), (0xA38, 0xA39, .other 41),
  (0xA3C, 0xA3C, .other 41), (0xA3E, 0xA40, .other 41), (0xA41, 0xA42, .other 41), (0xA47, 0xA48, .other 41),
  (0xA4B, 0xA4D, .other 41), (0xA51, 0xA51, .other 41), (0xA59, 0xA5C, .other 41), (0xA5E, 0xA5E, .other 41),
  (0xA66, 0xA6F, .other 41), (0xA70, 0xA71, .other 41), (0xA72, 0xA74, .other 41), (0xA75, 0xA75, .other 41),
  (0xA81, 0xA82, .other 40), (0xA83, 0xA83, .other 40), (0xA85, 0xA8D, .other 40), (0xA8F, 0xA91, .other 40),
  (0xA93, 0xAA8, .other 40), (0xAAA, 0xAB0, .other 40), (0xAB2, 0xAB3, .other 40), (0xAB5, 0xAB9, .other 40),
  (0xABC, 0xABC, .other 40), (0xABD, 0xABD, .other 40), (0xABE, 0xAC0, .other 40), (0xAC1, 0xAC5, .other 40),
  (0xAC7, 0xAC8, .other 40), (0xAC9, 0xAC9, .other 40), (0xACB, 0xACC, .other 40), (0xACD, 0xACD, .other 40),
  (0xAD0, 0xAD0, .other 40), (0xAE0, 0xAE1, .other 40), (0xAE2, 0xAE3, .other 40), (0xAE6, 0xAEF, .other 40),
  (0xAF0, 0xAF0, .other 40), (0xAF1, 0xAF1, .other 40), (0xAF9, 0xAF9, .other 40), (0xB01, 0xB01, .other 98),
  (0xB02, 0xB03, .other 98), (0xB05, 0xB0C, .other 98), (0xB0F, 0xB10, .other 98), (0xB13, 0xB28, .other 98),
  (0xB2A, 0xB30, .other 98), (0xB32, 0xB33, .other 98), (0xB35, 0xB39, .other 98), (0xB3C, 0xB3C, .other 98),
  (0xB3D, 0xB3D, .other 98), (0xB3E, 0xB3E, .other 98), (0xB3F, 0xB3F, .other 98), (0xB40, 0xB40, .other 98),
  (0xB41, 0xB44, .other 98), (0xB47, 0xB48, .other 98), (0xB4B, 0xB4C, .other 98), (0xB4D, 0xB4D, .other 98),
  (0xB56, 0xB56, .other 98), (0xB57, 0xB57, .other 98), (0xB5C, 0xB5D, .other 98), (0xB5F, 0xB61, .other 98),
  (0xB62, 0xB63, .other 98), (0xB66, 0xB6F, .other 98), (0xB70, 0xB70, .other 98), (0xB71, 0xB71, .other 98),
  (0xB72, 0xB77, .other 98), (0xB82, 0xB82, .other 126), (0xB83, 0xB83, .other 126), (0xB85, 0xB8A, .other 126),
  (0xB8E, 0xB90, .other 126), (0xB92, 0xB95, .other 126), (0xB99, 0xB9A, .other 126), (0xB9C, 0xB9C, .other 126),
  (0xB9E, 0xB9F, .other 126), (0xBA3, 0xBA4, .other 126), (0xBA8, 0xBAA, .other 126), (0xBAE, 0xBB9, .other 126)]

/-- `get_script` (`scripts.rs:1109-1228`): the arms, first and last code point and script. -/
def arms8 : List (Nat × Nat × Script) := [
  (0xBBE, 0xBBF, .other 126), (0xBC0, 0xBC0, .other 126), (0xBC1, 0xBC2, .other 126), (0xBC6, 0xBC8, .other 126),
  (0xBCA, 0xBCC, .other 126), (0xBCD, 0xBCD, .other 126), (0xBD0, 0xBD0, .other 126), (0xBD7, 0xBD7, .other 126),
  (0xBE6, 0xBEF, .other 126), (0xBF0, 0xBF2, .other 126), (0xBF3, 0xBF8, .other 126), (0xBF9, 0xBF9, .other 126),
  (0xBFA, 0xBFA, .other 126), (0xC00, 0xC00, .other 128), (0xC01, 0xC03, .other 128), (0xC05, 0xC0C, .other 128),
  (0xC0E, 0xC10, .other 128), (0xC12, 0xC28, .other 128), (0xC2A, 0xC39, .other 128), (0xC3D, 0xC3D, .other 128),
  (0xC3E, 0xC40, .other 128), (0xC41, 0xC44, .other 128), (0xC46, 0xC48, .other 128), (0xC4A, 0xC4D, .other 128),
  (0xC55, 0xC56, .other 128), (0xC58, 0xC5A, .other 128), (0xC60, 0xC61, .other 128), (0xC62, 0xC63, .other 128),
  (0xC66, 0xC6F, .other 128), (0xC78, 0xC7E, .other 128), (0xC7F, 0xC7F, .other 128), (0xC80, 0xC80, .other 54),
  (0xC81, 0xC81, .other 54), (0xC82, 0xC83, .other 54), (0xC85, 0xC8C, .other 54), (0xC8E, 0xC90, .other 54),
  (0xC92, 0xCA8, .other 54), (0xCAA, 0xCB3, .other 54), (0xCB5, 0xCB9, .other 54), (0xCBC, 0xCBC, .other 54),
  (0xCBD, 0xCBD, .other 54), (0xCBE, 0xCBE, .other 54), (0xCBF, 0xCBF, .other 54), (0xCC0, 0xCC4, .other 54),
  (0xCC6, 0xCC6, .other 54), (0xCC7, 0xCC8, .other 54), (0xCCA, 0xCCB, .other 54), (0xCCC, 0xCCD, .other 54),
  (0xCD5, 0xCD6, .other 54), (0xCDE, 0xCDE, .other 54), (0xCE0, 0xCE1, .other 54), (0xCE2, 0xCE3, .other 54),
  (0xCE6, 0xCEF, .other 54), (0xCF1, 0xCF2, .other 54), (0xD01, 0xD01, .other 71), (0xD02, 0xD03, .other 71),
  (0xD05, 0xD0C, .other 71), (0xD0E, 0xD10, .other 71), (0xD12, 0xD3A, .other 71), (0xD3D, 0xD3D, .other 71),
  (0xD3E, 0xD40, .other 71), (0xD41, 0xD44, .other 71), (0xD46, 0xD48, .other 71), (0xD4A, 0xD4C, .other 71),
  (0xD4D, 0xD4D, .other 71), (0xD4E, 0xD4E, .other 71), (0xD4F, 0xD4F, .other 71), (0xD54, 0xD56, .other 71),
  (0xD57, 0xD57, .other 71), (0xD58, 0xD5E, .other 71), (0xD5F, 0xD61, .other 71), (0xD62, 0xD63, .other 71),
  (0xD66, 0xD6F, .other 71), (0xD70, 0xD78, .other 71), (0xD79, 0xD79, .other 71), (0xD7A, 0xD7F, .other 71),
  (0xD82, 0xD83, .other 115), (0xD85, 0xD96, .other 115), (0xD9A, 0xDB1, .other 115), (0xDB3, 0xDBB, .other 115),
  (0xDBD, 0xDBD, .other 115), (0xDC0, 0xDC6, .other 115), (0xDCA, 0xDCA, .other 115), (0xDCF, 0xDD1, .other 115),
  (0xDD2, 0xDD4, .other 115), (0xDD6, 0xDD6, .other 115), (0xDD8, 0xDDF, .other 115), (0xDE6, 0xDEF, .other 115),
  (0xDF2, 0xDF3, .other 115), (0xDF4, 0xDF4, .other 115), (0x111E1, 0x111F4, .other 115), (0xE01, 0xE30, .other 130),
  (0xE31, 0xE31, .other 130), (0xE32, 0xE33, .other 130), (0xE34, 0xE3A, .other 130), (0xE40, 0xE45, .other 130),
  (0xE46, 0xE46, .other 130), (0xE47, 0xE4E, .other 130), (0xE4F, 0xE4F, .other 130), (0xE50, 0xE59, .other 130),
  (0xE5A, 0xE5B, .other 130), (0xE81, 0xE82, .other 61), (0xE84, 0xE84, .other 61), (0xE87, 0xE88, .other 61),
  (0xE8A, 0xE8A, .other 61), (0xE8D, 0xE8D, .other 61), (0xE94, 0xE97, .other 61), (0xE99, 0xE9F, .other 61),
  (0xEA1, 0xEA3, .other 61), (0xEA5, 0xEA5, .other 61), (0xEA7, 0xEA7, .other 61), (0xEAA, 0xEAB, .other 61),
  (0xEAD, 0xEB0, .other 61), (0xEB1, 0xEB1, .other 61), (0xEB2, 0xEB3, .other 61), (0xEB4, 0xEB9, .other 61),
  (0xEBB, 0xEBC, .other 61), (0xEBD, 0xEBD, .other 61), (0xEC0, 0xEC4, .other 61), (0xEC6, 0xEC6, .other 61)]

/-- `get_script` (`scripts.rs:1229-1348`): the arms, first and last code point and script. -/
def arms9 : List (Nat × Nat × Script) := [
  (0xEC8, 0xECD, .other 61), (0xED0, 0xED9, .other 61), (0xEDC, 0xEDF, .other 61), (0xF00, 0xF00, .other 131),
  (0xF01, 0xF03, .other 131), (0xF04, 0xF12, .other 131), (0xF13, 0xF13, .other 131), (0xF14, 0xF14, .other 131),
  (0xF15, 0xF17, .other 131), (0xF18, 0xF19, .other 131), (0xF1A, 0xF1F, .other 131), (0xF20, 0xF29, .other 131),
  (0xF2A, 0xF33, .other 131), (0xF34, 0xF34, .other 131), (0xF35, 0xF35, .other 131), (0xF36, 0xF36, .other 131),
  (0xF37, 0xF37, .other 131), (0xF38, 0xF38, .other 131), (0xF39, 0xF39, .other 131), (0xF3A, 0xF3A, .other 131),
  (0xF3B, 0xF3B, .other 131), (0xF3C, 0xF3C, .other 131), (0xF3D, 0xF3D, .other 131), (0xF3E, 0xF3F, .other 131),
  (0xF40, 0xF47, .other 131), (0xF49, 0xF6C, .other 131), (0xF71, 0xF7E, .other 131), (0xF7F, 0xF7F, .other 131),
  (0xF80, 0xF84, .other 131), (0xF85, 0xF85, .other 131), (0xF86, 0xF87, .other 131), (0xF88, 0xF8C, .other 131),
  (0xF8D, 0xF97, .other 131), (0xF99, 0xFBC, .other 131), (0xFBE, 0xFC5, .other 131), (0xFC6, 0xFC6, .other 131),
  (0xFC7, 0xFCC, .other 131), (0xFCE, 0xFCF, .other 131), (0xFD0, 0xFD4, .other 131), (0xFD9, 0xFDA, .other 131),
  (0x1000, 0x102A, .other 84), (0x102B, 0x102C, .other 84), (0x102D, 0x1030, .other 84), (0x1031, 0x1031, .other 84),
  (0x1032, 0x1037, .other 84), (0x1038, 0x1038, .other 84), (0x1039, 0x103A, .other 84), (0x103B, 0x103C, .other 84),
  (0x103D, 0x103E, .other 84), (0x103F, 0x103F, .other 84), (0x1040, 0x1049, .other 84), (0x104A, 0x104F, .other 84),
  (0x1050, 0x1055, .other 84), (0x1056, 0x1057, .other 84), (0x1058, 0x1059, .other 84), (0x105A, 0x105D, .other 84),
  (0x105E, 0x1060, .other 84), (0x1061, 0x1061, .other 84), (0x1062, 0x1064, .other 84), (0x1065, 0x1066, .other 84),
  (0x1067, 0x106D, .other 84), (0x106E, 0x1070, .other 84), (0x1071, 0x1074, .other 84), (0x1075, 0x1081, .other 84),
  (0x1082, 0x1082, .other 84), (0x1083, 0x1084, .other 84), (0x1085, 0x1086, .other 84), (0x1087, 0x108C, .other 84),
  (0x108D, 0x108D, .other 84), (0x108E, 0x108E, .other 84), (0x108F, 0x108F, .other 84), (0x1090, 0x1099, .other 84),
  (0x109A, 0x109C, .other 84), (0x109D, 0x109D, .other 84), (0x109E, 0x109F, .other 84), (0xA9E0, 0xA9E4, .other 84),
  (0xA9E5, 0xA9E5, .other 84), (0xA9E6, 0xA9E6, .other 84), (0xA9E7, 0xA9EF, .other 84), (0xA9F0, 0xA9F9, .other 84),
  (0xA9FA, 0xA9FE, .other 84), (0xAA60, 0xAA6F, .other 84), (0xAA70, 0xAA70, .other 84), (0xAA71, 0xAA76, .other 84),
  (0xAA77, 0xAA79, .other 84), (0xAA7A, 0xAA7A, .other 84), (0xAA7B, 0xAA7B, .other 84), (0xAA7C, 0xAA7C, .other 84),
  (0xAA7D, 0xAA7D, .other 84), (0xAA7E, 0xAA7F, .other 84), (0x10A0, 0x10C5, .other 35), (0x10C7, 0x10C7, .other 35),
  (0x10CD, 0x10CD, .other 35), (0x10D0, 0x10FA, .other 35), (0x10FC, 0x10FC, .other 35), (0x10FD, 0x10FF, .other 35),
  (0x2D00, 0x2D25, .other 35), (0x2D27, 0x2D27, .other 35), (0x2D2D, 0x2D2D, .other 35), (0x1100, 0x11FF, .other 43),
  (0x302E, 0x302F, .other 43), (0x3131, 0x318E, .other 43), (0x3200, 0x321E, .other 43), (0x3260, 0x327E, .other 43),
  (0xA960, 0xA97C, .other 43), (0xAC00, 0xD7A3, .other 43), (0xD7B0, 0xD7C6, .other 43), (0xD7CB, 0xD7FB, .other 43),
  (0xFFA0, 0xFFBE, .other 43), (0xFFC2, 0xFFC7, .other 43), (0xFFCA, 0xFFCF, .other 43), (0xFFD2, 0xFFD7, .other 43),
  (0xFFDA, 0xFFDC, .other 43), (0x1200, 0x1248, .other 34), (0x124A, 0x124D, .other 34), (0x1250, 0x1256, .other 34),
  (0x1258, 0x1258, .other 34), (0x125A, 0x125D, .other 34), (0x1260, 0x1288, .other 34), (0x128A, 0x128D, .other 34)]

/-- `get_script` (`scripts.rs:1349-1468`): the arms, first and last code point and script. -/
def arms10 : List (Nat × Nat × Script) := [
  (0x1290, 0x12B0, .other 34), (0x12B2, 0x12B5, .other 34), (0x12B8, 0x12BE, .other 34), (0x12C0, 0x12C0, .other 34),
  (0x12C2, 0x12C5, .other 34), (0x12C8, 0x12D6, .other 34), (0x12D8, 0x1310, .other 34), (0x1312, 0x1315, .other 34),
  (0x1318, 0x135A, .other 34), (0x135D, 0x135F, .other 34), (0x1360, 0x1368, .other 34), (0x1369, 0x137C, .other 34),
  (0x1380, 0x138F, .other 34), (0x1390, 0x1399, .other 34), (0x2D80, 0x2D96, .other 34), (0x2DA0, 0x2DA6, .other 34),
  (0x2DA8, 0x2DAE, .other 34), (0x2DB0, 0x2DB6, .other 34), (0x2DB8, 0x2DBE, .other 34), (0x2DC0, 0x2DC6, .other 34),
  (0x2DC8, 0x2DCE, .other 34), (0x2DD0, 0x2DD6, .other 34), (0x2DD8, 0x2DDE, .other 34), (0xAB01, 0xAB06, .other 34),
  (0xAB09, 0xAB0E, .other 34), (0xAB11, 0xAB16, .other 34), (0xAB20, 0xAB26, .other 34), (0xAB28, 0xAB2E, .other 34),
  (0x13A0, 0x13F5, .other 23), (0x13F8, 0x13FD, .other 23), (0xAB70, 0xABBF, .other 23), (0x1400, 0x1400, .other 18),
  (0x1401, 0x166C, .other 18), (0x166D, 0x166E, .other 18), (0x166F, 0x167F, .other 18), (0x18B0, 0x18F5, .other 18),
  (0x1680, 0x1680, .other 89), (0x1681, 0x169A, .other 89), (0x169B, 0x169B, .other 89), (0x169C, 0x169C, .other 89),
  (0x16A0, 0x16EA, .other 108), (0x16EE, 0x16F0, .other 108), (0x16F1, 0x16F8, .other 108),
  (0x1780, 0x17B3, .other 58), (0x17B4, 0x17B5, .other 58), (0x17B6, 0x17B6, .other 58), (0x17B7, 0x17BD, .other 58),
  (0x17BE, 0x17C5, .other 58), (0x17C6, 0x17C6, .other 58), (0x17C7, 0x17C8, .other 58), (0x17C9, 0x17D3, .other 58),
  (0x17D4, 0x17D6, .other 58), (0x17D7, 0x17D7, .other 58), (0x17D8, 0x17DA, .other 58), (0x17DB, 0x17DB, .other 58),
  (0x17DC, 0x17DC, .other 58), (0x17DD, 0x17DD, .other 58), (0x17E0, 0x17E9, .other 58), (0x17F0, 0x17F9, .other 58),
  (0x19E0, 0x19FF, .other 58), (0x1800, 0x1801, .other 81), (0x1804, 0x1804, .other 81), (0x1806, 0x1806, .other 81),
  (0x1807, 0x180A, .other 81), (0x180B, 0x180D, .other 81), (0x180E, 0x180E, .other 81), (0x1810, 0x1819, .other 81),
  (0x1820, 0x1842, .other 81), (0x1843, 0x1843, .other 81), (0x1844, 0x1877, .other 81), (0x1880, 0x1884, .other 81),
  (0x1885, 0x1886, .other 81), (0x1887, 0x18A8, .other 81), (0x18A9, 0x18A9, .other 81), (0x18AA, 0x18AA, .other 81),
  (0x11660, 0x1166C, .other 81), (0x3041, 0x3096, .hiragana), (0x309D, 0x309E, .hiragana),
  (0x309F, 0x309F, .hiragana), (0x1B001, 0x1B001, .hiragana), (0x1F200, 0x1F200, .hiragana),
  (0x30A1, 0x30FA, .katakana), (0x30FD, 0x30FE, .katakana), (0x30FF, 0x30FF, .katakana), (0x31F0, 0x31FF, .katakana),
  (0x32D0, 0x32FE, .katakana), (0x3300, 0x3357, .katakana), (0xFF66, 0xFF6F, .katakana), (0xFF71, 0xFF9D, .katakana),
  (0x1B000, 0x1B000, .katakana), (0x2EA, 0x2EB, .other 13), (0x3105, 0x312D, .other 13), (0x31A0, 0x31BA, .other 13),
  (0x2E80, 0x2E99, .han), (0x2E9B, 0x2EF3, .han), (0x2F00, 0x2FD5, .han), (0x3005, 0x3005, .han),
  (0x3007, 0x3007, .han), (0x3021, 0x3029, .han), (0x3038, 0x303A, .han), (0x303B, 0x303B, .han),
  (0x3400, 0x4DB5, .han), (0x4E00, 0x9FD5, .han), (0xF900, 0xFA6D, .han), (0xFA70, 0xFAD9, .han),
  (0x20000, 0x2A6D6, .han), (0x2A700, 0x2B734, .han), (0x2B740, 0x2B81D, .han), (0x2B820, 0x2CEA1, .han),
  (0x2F800, 0x2FA1D, .han), (0xA000, 0xA014, .other 137), (0xA015, 0xA015, .other 137), (0xA016, 0xA48C, .other 137),
  (0xA490, 0xA4C6, .other 137), (0x10300, 0x1031F, .other 92), (0x10320, 0x10323, .other 92),
  (0x10330, 0x10340, .other 37), (0x10341, 0x10341, .other 37), (0x10342, 0x10349, .other 37),
  (0x1034A, 0x1034A, .other 37)]

/-- `get_script` (`scripts.rs:1469-1588`): the arms, first and last code point and script. -/
def arms11 : List (Nat × Nat × Script) := [
  (0x10400, 0x1044F, .other 29), (0x300, 0x36F, .other 49), (0x485, 0x486, .other 49), (0x64B, 0x655, .other 49),
  (0x670, 0x670, .other 49), (0x951, 0x952, .other 49), (0x1AB0, 0x1ABD, .other 49), (0x1ABE, 0x1ABE, .other 49),
  (0x1CD0, 0x1CD2, .other 49), (0x1CD4, 0x1CE0, .other 49), (0x1CE2, 0x1CE8, .other 49), (0x1CED, 0x1CED, .other 49),
  (0x1CF4, 0x1CF4, .other 49), (0x1CF8, 0x1CF9, .other 49), (0x1DC0, 0x1DF5, .other 49), (0x1DFB, 0x1DFF, .other 49),
  (0x200C, 0x200D, .other 49), (0x20D0, 0x20DC, .other 49), (0x20DD, 0x20E0, .other 49), (0x20E1, 0x20E1, .other 49),
  (0x20E2, 0x20E4, .other 49), (0x20E5, 0x20F0, .other 49), (0x302A, 0x302D, .other 49), (0x3099, 0x309A, .other 49),
  (0xFE00, 0xFE0F, .other 49), (0xFE20, 0xFE2D, .other 49), (0x101FD, 0x101FD, .other 49),
  (0x102E0, 0x102E0, .other 49), (0x1D167, 0x1D169, .other 49), (0x1D17B, 0x1D182, .other 49),
  (0x1D185, 0x1D18B, .other 49), (0x1D1AA, 0x1D1AD, .other 49), (0xE0100, 0xE01EF, .other 49),
  (0x1700, 0x170C, .other 120), (0x170E, 0x1711, .other 120), (0x1712, 0x1714, .other 120),
  (0x1720, 0x1731, .other 44), (0x1732, 0x1734, .other 44), (0x1740, 0x1751, .other 17), (0x1752, 0x1753, .other 17),
  (0x1760, 0x176C, .other 121), (0x176E, 0x1770, .other 121), (0x1772, 0x1773, .other 121),
  (0x1900, 0x191E, .other 64), (0x1920, 0x1922, .other 64), (0x1923, 0x1926, .other 64), (0x1927, 0x1928, .other 64),
  (0x1929, 0x192B, .other 64), (0x1930, 0x1931, .other 64), (0x1932, 0x1932, .other 64), (0x1933, 0x1938, .other 64),
  (0x1939, 0x193B, .other 64), (0x1940, 0x1940, .other 64), (0x1944, 0x1945, .other 64), (0x1946, 0x194F, .other 64),
  (0x1950, 0x196D, .other 122), (0x1970, 0x1974, .other 122), (0x10000, 0x1000B, .other 66),
  (0x1000D, 0x10026, .other 66), (0x10028, 0x1003A, .other 66), (0x1003C, 0x1003D, .other 66),
  (0x1003F, 0x1004D, .other 66), (0x10050, 0x1005D, .other 66), (0x10080, 0x100FA, .other 66),
  (0x10380, 0x1039D, .other 134), (0x1039F, 0x1039F, .other 134), (0x10450, 0x1047F, .other 112),
  (0x10480, 0x1049D, .other 100), (0x104A0, 0x104A9, .other 100), (0x10800, 0x10805, .other 27),
  (0x10808, 0x10808, .other 27), (0x1080A, 0x10835, .other 27), (0x10837, 0x10838, .other 27),
  (0x1083C, 0x1083C, .other 27), (0x1083F, 0x1083F, .other 27), (0x2800, 0x28FF, .other 15),
  (0x1A00, 0x1A16, .other 16), (0x1A17, 0x1A18, .other 16), (0x1A19, 0x1A1A, .other 16), (0x1A1B, 0x1A1B, .other 16),
  (0x1A1E, 0x1A1F, .other 16), (0x3E2, 0x3EF, .other 25), (0x2C80, 0x2CE4, .other 25), (0x2CE5, 0x2CEA, .other 25),
  (0x2CEB, 0x2CEE, .other 25), (0x2CEF, 0x2CF1, .other 25), (0x2CF2, 0x2CF3, .other 25), (0x2CF9, 0x2CFC, .other 25),
  (0x2CFD, 0x2CFD, .other 25), (0x2CFE, 0x2CFF, .other 25), (0x1980, 0x19AB, .other 86), (0x19B0, 0x19C9, .other 86),
  (0x19D0, 0x19D9, .other 86), (0x19DA, 0x19DA, .other 86), (0x19DE, 0x19DF, .other 86), (0x2C00, 0x2C2E, .other 36),
  (0x2C30, 0x2C5E, .other 36), (0x1E000, 0x1E006, .other 36), (0x1E008, 0x1E018, .other 36),
  (0x1E01B, 0x1E021, .other 36), (0x1E023, 0x1E024, .other 36), (0x1E026, 0x1E02A, .other 36),
  (0x2D30, 0x2D67, .other 132), (0x2D6F, 0x2D6F, .other 132), (0x2D70, 0x2D70, .other 132),
  (0x2D7F, 0x2D7F, .other 132), (0xA800, 0xA801, .other 118), (0xA802, 0xA802, .other 118),
  (0xA803, 0xA805, .other 118), (0xA806, 0xA806, .other 118), (0xA807, 0xA80A, .other 118),
  (0xA80B, 0xA80B, .other 118), (0xA80C, 0xA822, .other 118), (0xA823, 0xA824, .other 118),
  (0xA825, 0xA826, .other 118), (0xA827, 0xA827, .other 118), (0xA828, 0xA82B, .other 118),
  (0x103A0, 0x103C3, .other 95), (0x103C8, 0x103CF, .other 95), (0x103D0, 0x103D0, .other 95)]

/-- `get_script` (`scripts.rs:1589-1708`): the arms, first and last code point and script. -/
def arms12 : List (Nat × Nat × Script) := [
  (0x103D1, 0x103D5, .other 95), (0x10A00, 0x10A00, .other 57), (0x10A01, 0x10A03, .other 57),
  (0x10A05, 0x10A06, .other 57), (0x10A0C, 0x10A0F, .other 57), (0x10A10, 0x10A13, .other 57),
  (0x10A15, 0x10A17, .other 57), (0x10A19, 0x10A33, .other 57), (0x10A38, 0x10A3A, .other 57),
  (0x10A3F, 0x10A3F, .other 57), (0x10A40, 0x10A47, .other 57), (0x10A50, 0x10A58, .other 57),
  (0x1B00, 0x1B03, .other 7), (0x1B04, 0x1B04, .other 7), (0x1B05, 0x1B33, .other 7), (0x1B34, 0x1B34, .other 7),
  (0x1B35, 0x1B35, .other 7), (0x1B36, 0x1B3A, .other 7), (0x1B3B, 0x1B3B, .other 7), (0x1B3C, 0x1B3C, .other 7),
  (0x1B3D, 0x1B41, .other 7), (0x1B42, 0x1B42, .other 7), (0x1B43, 0x1B44, .other 7), (0x1B45, 0x1B4B, .other 7),
  (0x1B50, 0x1B59, .other 7), (0x1B5A, 0x1B60, .other 7), (0x1B61, 0x1B6A, .other 7), (0x1B6B, 0x1B73, .other 7),
  (0x1B74, 0x1B7C, .other 7), (0x12000, 0x12399, .other 26), (0x12400, 0x1246E, .other 26),
  (0x12470, 0x12474, .other 26), (0x12480, 0x12543, .other 26), (0x10900, 0x10915, .other 105),
  (0x10916, 0x1091B, .other 105), (0x1091F, 0x1091F, .other 105), (0xA840, 0xA873, .other 104),
  (0xA874, 0xA877, .other 104), (0x7C0, 0x7C9, .other 88), (0x7CA, 0x7EA, .other 88), (0x7EB, 0x7F3, .other 88),
  (0x7F4, 0x7F5, .other 88), (0x7F6, 0x7F6, .other 88), (0x7F7, 0x7F9, .other 88), (0x7FA, 0x7FA, .other 88),
  (0x1B80, 0x1B81, .other 117), (0x1B82, 0x1B82, .other 117), (0x1B83, 0x1BA0, .other 117),
  (0x1BA1, 0x1BA1, .other 117), (0x1BA2, 0x1BA5, .other 117), (0x1BA6, 0x1BA7, .other 117),
  (0x1BA8, 0x1BA9, .other 117), (0x1BAA, 0x1BAA, .other 117), (0x1BAB, 0x1BAD, .other 117),
  (0x1BAE, 0x1BAF, .other 117), (0x1BB0, 0x1BB9, .other 117), (0x1BBA, 0x1BBF, .other 117),
  (0x1CC0, 0x1CC7, .other 117), (0x1C00, 0x1C23, .other 63), (0x1C24, 0x1C2B, .other 63),
  (0x1C2C, 0x1C33, .other 63), (0x1C34, 0x1C35, .other 63), (0x1C36, 0x1C37, .other 63), (0x1C3B, 0x1C3F, .other 63),
  (0x1C40, 0x1C49, .other 63), (0x1C4D, 0x1C4F, .other 63), (0x1C50, 0x1C59, .other 90), (0x1C5A, 0x1C77, .other 90),
  (0x1C78, 0x1C7D, .other 90), (0x1C7E, 0x1C7F, .other 90), (0xA500, 0xA60B, .other 135),
  (0xA60C, 0xA60C, .other 135), (0xA60D, 0xA60F, .other 135), (0xA610, 0xA61F, .other 135),
  (0xA620, 0xA629, .other 135), (0xA62A, 0xA62B, .other 135), (0xA880, 0xA881, .other 110),
  (0xA882, 0xA8B3, .other 110), (0xA8B4, 0xA8C3, .other 110), (0xA8C4, 0xA8C5, .other 110),
  (0xA8CE, 0xA8CF, .other 110), (0xA8D0, 0xA8D9, .other 110), (0xA900, 0xA909, .other 56),
  (0xA90A, 0xA925, .other 56), (0xA926, 0xA92D, .other 56), (0xA92F, 0xA92F, .other 56),
  (0xA930, 0xA946, .other 107), (0xA947, 0xA951, .other 107), (0xA952, 0xA953, .other 107),
  (0xA95F, 0xA95F, .other 107), (0x10280, 0x1029C, .other 68), (0x102A0, 0x102D0, .other 19),
  (0x10920, 0x10939, .other 69), (0x1093F, 0x1093F, .other 69), (0xAA00, 0xAA28, .other 22),
  (0xAA29, 0xAA2E, .other 22), (0xAA2F, 0xAA30, .other 22), (0xAA31, 0xAA32, .other 22), (0xAA33, 0xAA34, .other 22),
  (0xAA35, 0xAA36, .other 22), (0xAA40, 0xAA42, .other 22), (0xAA43, 0xAA43, .other 22), (0xAA44, 0xAA4B, .other 22),
  (0xAA4C, 0xAA4C, .other 22), (0xAA4D, 0xAA4D, .other 22), (0xAA50, 0xAA59, .other 22), (0xAA5C, 0xAA5F, .other 22),
  (0x1A20, 0x1A54, .other 123), (0x1A55, 0x1A55, .other 123), (0x1A56, 0x1A56, .other 123),
  (0x1A57, 0x1A57, .other 123), (0x1A58, 0x1A5E, .other 123), (0x1A60, 0x1A60, .other 123),
  (0x1A61, 0x1A61, .other 123), (0x1A62, 0x1A62, .other 123), (0x1A63, 0x1A64, .other 123),
  (0x1A65, 0x1A6C, .other 123), (0x1A6D, 0x1A72, .other 123), (0x1A73, 0x1A7C, .other 123),
  (0x1A7F, 0x1A7F, .other 123)]

/-- `get_script` (`scripts.rs:1709-1828`): the arms, first and last code point and script. -/
def arms13 : List (Nat × Nat × Script) := [
  (0x1A80, 0x1A89, .other 123), (0x1A90, 0x1A99, .other 123), (0x1AA0, 0x1AA6, .other 123),
  (0x1AA7, 0x1AA7, .other 123), (0x1AA8, 0x1AAD, .other 123), (0xAA80, 0xAAAF, .other 124),
  (0xAAB0, 0xAAB0, .other 124), (0xAAB1, 0xAAB1, .other 124), (0xAAB2, 0xAAB4, .other 124),
  (0xAAB5, 0xAAB6, .other 124), (0xAAB7, 0xAAB8, .other 124), (0xAAB9, 0xAABD, .other 124),
  (0xAABE, 0xAABF, .other 124), (0xAAC0, 0xAAC0, .other 124), (0xAAC1, 0xAAC1, .other 124),
  (0xAAC2, 0xAAC2, .other 124), (0xAADB, 0xAADC, .other 124), (0xAADD, 0xAADD, .other 124),
  (0xAADE, 0xAADF, .other 124), (0x10B00, 0x10B35, .other 6), (0x10B39, 0x10B3F, .other 6),
  (0x13000, 0x1342E, .other 32), (0x800, 0x815, .other 109), (0x816, 0x819, .other 109), (0x81A, 0x81A, .other 109),
  (0x81B, 0x823, .other 109), (0x824, 0x824, .other 109), (0x825, 0x827, .other 109), (0x828, 0x828, .other 109),
  (0x829, 0x82D, .other 109), (0x830, 0x83E, .other 109), (0xA4D0, 0xA4F7, .other 67), (0xA4F8, 0xA4FD, .other 67),
  (0xA4FE, 0xA4FF, .other 67), (0xA6A0, 0xA6E5, .other 8), (0xA6E6, 0xA6EF, .other 8), (0xA6F0, 0xA6F1, .other 8),
  (0xA6F2, 0xA6F7, .other 8), (0x16800, 0x16A38, .other 8), (0xA980, 0xA982, .other 52), (0xA983, 0xA983, .other 52),
  (0xA984, 0xA9B2, .other 52), (0xA9B3, 0xA9B3, .other 52), (0xA9B4, 0xA9B5, .other 52), (0xA9B6, 0xA9B9, .other 52),
  (0xA9BA, 0xA9BB, .other 52), (0xA9BC, 0xA9BC, .other 52), (0xA9BD, 0xA9C0, .other 52), (0xA9C1, 0xA9CD, .other 52),
  (0xA9D0, 0xA9D9, .other 52), (0xA9DE, 0xA9DF, .other 52), (0xAAE0, 0xAAEA, .other 75), (0xAAEB, 0xAAEB, .other 75),
  (0xAAEC, 0xAAED, .other 75), (0xAAEE, 0xAAEF, .other 75), (0xAAF0, 0xAAF1, .other 75), (0xAAF2, 0xAAF2, .other 75),
  (0xAAF3, 0xAAF4, .other 75), (0xAAF5, 0xAAF5, .other 75), (0xAAF6, 0xAAF6, .other 75), (0xABC0, 0xABE2, .other 75),
  (0xABE3, 0xABE4, .other 75), (0xABE5, 0xABE5, .other 75), (0xABE6, 0xABE7, .other 75), (0xABE8, 0xABE8, .other 75),
  (0xABE9, 0xABEA, .other 75), (0xABEB, 0xABEB, .other 75), (0xABEC, 0xABEC, .other 75), (0xABED, 0xABED, .other 75),
  (0xABF0, 0xABF9, .other 75), (0x10840, 0x10855, .other 48), (0x10857, 0x10857, .other 48),
  (0x10858, 0x1085F, .other 48), (0x10A60, 0x10A7C, .other 96), (0x10A7D, 0x10A7E, .other 96),
  (0x10A7F, 0x10A7F, .other 96), (0x10B40, 0x10B55, .other 51), (0x10B58, 0x10B5F, .other 51),
  (0x10B60, 0x10B72, .other 50), (0x10B78, 0x10B7F, .other 50), (0x10C00, 0x10C48, .other 97),
  (0x11080, 0x11081, .other 53), (0x11082, 0x11082, .other 53), (0x11083, 0x110AF, .other 53),
  (0x110B0, 0x110B2, .other 53), (0x110B3, 0x110B6, .other 53), (0x110B7, 0x110B8, .other 53),
  (0x110B9, 0x110BA, .other 53), (0x110BB, 0x110BC, .other 53), (0x110BD, 0x110BD, .other 53),
  (0x110BE, 0x110C1, .other 53), (0x1BC0, 0x1BE5, .other 10), (0x1BE6, 0x1BE6, .other 10),
  (0x1BE7, 0x1BE7, .other 10), (0x1BE8, 0x1BE9, .other 10), (0x1BEA, 0x1BEC, .other 10), (0x1BED, 0x1BED, .other 10),
  (0x1BEE, 0x1BEE, .other 10), (0x1BEF, 0x1BF1, .other 10), (0x1BF2, 0x1BF3, .other 10), (0x1BFC, 0x1BFF, .other 10),
  (0x11000, 0x11000, .other 14), (0x11001, 0x11001, .other 14), (0x11002, 0x11002, .other 14),
  (0x11003, 0x11037, .other 14), (0x11038, 0x11046, .other 14), (0x11047, 0x1104D, .other 14),
  (0x11052, 0x11065, .other 14), (0x11066, 0x1106F, .other 14), (0x1107F, 0x1107F, .other 14),
  (0x840, 0x858, .other 72), (0x859, 0x85B, .other 72), (0x85E, 0x85E, .other 72), (0x11100, 0x11102, .other 21),
  (0x11103, 0x11126, .other 21), (0x11127, 0x1112B, .other 21), (0x1112C, 0x1112C, .other 21),
  (0x1112D, 0x11134, .other 21), (0x11136, 0x1113F, .other 21), (0x11140, 0x11143, .other 21)]

/-- `get_script` (`scripts.rs:1829-1948`): the arms, first and last code point and script. -/
def arms14 : List (Nat × Nat × Script) := [
  (0x109A0, 0x109B7, .other 77), (0x109BC, 0x109BD, .other 77), (0x109BE, 0x109BF, .other 77),
  (0x109C0, 0x109CF, .other 77), (0x109D2, 0x109FF, .other 77), (0x10980, 0x1099F, .other 78),
  (0x16F00, 0x16F44, .other 79), (0x16F50, 0x16F50, .other 79), (0x16F51, 0x16F7E, .other 79),
  (0x16F8F, 0x16F92, .other 79), (0x16F93, 0x16F9F, .other 79), (0x11180, 0x11181, .other 111),
  (0x11182, 0x11182, .other 111), (0x11183, 0x111B2, .other 111), (0x111B3, 0x111B5, .other 111),
  (0x111B6, 0x111BE, .other 111), (0x111BF, 0x111C0, .other 111), (0x111C1, 0x111C4, .other 111),
  (0x111C5, 0x111C9, .other 111), (0x111CA, 0x111CC, .other 111), (0x111CD, 0x111CD, .other 111),
  (0x111D0, 0x111D9, .other 111), (0x111DA, 0x111DA, .other 111), (0x111DB, 0x111DB, .other 111),
  (0x111DC, 0x111DC, .other 111), (0x111DD, 0x111DF, .other 111), (0x110D0, 0x110E8, .other 116),
  (0x110F0, 0x110F9, .other 116), (0x11680, 0x116AA, .other 125), (0x116AB, 0x116AB, .other 125),
  (0x116AC, 0x116AC, .other 125), (0x116AD, 0x116AD, .other 125), (0x116AE, 0x116AF, .other 125),
  (0x116B0, 0x116B5, .other 125), (0x116B6, 0x116B6, .other 125), (0x116B7, 0x116B7, .other 125),
  (0x116C0, 0x116C9, .other 125), (0x10530, 0x10563, .other 20), (0x1056F, 0x1056F, .other 20),
  (0x16AD0, 0x16AED, .other 9), (0x16AF0, 0x16AF4, .other 9), (0x16AF5, 0x16AF5, .other 9),
  (0x1BC00, 0x1BC6A, .other 31), (0x1BC70, 0x1BC7C, .other 31), (0x1BC80, 0x1BC88, .other 31),
  (0x1BC90, 0x1BC99, .other 31), (0x1BC9C, 0x1BC9C, .other 31), (0x1BC9D, 0x1BC9E, .other 31),
  (0x1BC9F, 0x1BC9F, .other 31), (0x10500, 0x10527, .other 33), (0x11300, 0x11301, .other 38),
  (0x11302, 0x11303, .other 38), (0x11305, 0x1130C, .other 38), (0x1130F, 0x11310, .other 38),
  (0x11313, 0x11328, .other 38), (0x1132A, 0x11330, .other 38), (0x11332, 0x11333, .other 38),
  (0x11335, 0x11339, .other 38), (0x1133C, 0x1133C, .other 38), (0x1133D, 0x1133D, .other 38),
  (0x1133E, 0x1133F, .other 38), (0x11340, 0x11340, .other 38), (0x11341, 0x11344, .other 38),
  (0x11347, 0x11348, .other 38), (0x1134B, 0x1134D, .other 38), (0x11350, 0x11350, .other 38),
  (0x11357, 0x11357, .other 38), (0x1135D, 0x11361, .other 38), (0x11362, 0x11363, .other 38),
  (0x11366, 0x1136C, .other 38), (0x11370, 0x11374, .other 38), (0x16B00, 0x16B2F, .other 101),
  (0x16B30, 0x16B36, .other 101), (0x16B37, 0x16B3B, .other 101), (0x16B3C, 0x16B3F, .other 101),
  (0x16B40, 0x16B43, .other 101), (0x16B44, 0x16B44, .other 101), (0x16B45, 0x16B45, .other 101),
  (0x16B50, 0x16B59, .other 101), (0x16B5B, 0x16B61, .other 101), (0x16B63, 0x16B77, .other 101),
  (0x16B7D, 0x16B8F, .other 101), (0x11200, 0x11211, .other 59), (0x11213, 0x1122B, .other 59),
  (0x1122C, 0x1122E, .other 59), (0x1122F, 0x11231, .other 59), (0x11232, 0x11233, .other 59),
  (0x11234, 0x11234, .other 59), (0x11235, 0x11235, .other 59), (0x11236, 0x11237, .other 59),
  (0x11238, 0x1123D, .other 59), (0x1123E, 0x1123E, .other 59), (0x10600, 0x10736, .other 65),
  (0x10740, 0x10755, .other 65), (0x10760, 0x10767, .other 65), (0x11150, 0x11172, .other 70),
  (0x11173, 0x11173, .other 70), (0x11174, 0x11175, .other 70), (0x11176, 0x11176, .other 70),
  (0x10AC0, 0x10AC7, .other 73), (0x10AC8, 0x10AC8, .other 73), (0x10AC9, 0x10AE4, .other 73),
  (0x10AE5, 0x10AE6, .other 73), (0x10AEB, 0x10AEF, .other 73), (0x10AF0, 0x10AF6, .other 73),
  (0x1E800, 0x1E8C4, .other 76), (0x1E8C7, 0x1E8CF, .other 76), (0x1E8D0, 0x1E8D6, .other 76),
  (0x11600, 0x1162F, .other 80), (0x11630, 0x11632, .other 80), (0x11633, 0x1163A, .other 80),
  (0x1163B, 0x1163C, .other 80), (0x1163D, 0x1163D, .other 80), (0x1163E, 0x1163E, .other 80),
  (0x1163F, 0x11640, .other 80), (0x11641, 0x11643, .other 80), (0x11644, 0x11644, .other 80),
  (0x11650, 0x11659, .other 80), (0x16A40, 0x16A5E, .other 82), (0x16A60, 0x16A69, .other 82)]

/-- `get_script` (`scripts.rs:1949-2068`): the arms, first and last code point and script. -/
def arms15 : List (Nat × Nat × Script) := [
  (0x16A6E, 0x16A6F, .other 82), (0x10A80, 0x10A9C, .other 93), (0x10A9D, 0x10A9F, .other 93),
  (0x10880, 0x1089E, .other 85), (0x108A7, 0x108AF, .other 85), (0x10860, 0x10876, .other 102),
  (0x10877, 0x10878, .other 102), (0x10879, 0x1087F, .other 102), (0x11AC0, 0x11AF8, .other 103),
  (0x10350, 0x10375, .other 94), (0x10376, 0x1037A, .other 94), (0x10B80, 0x10B91, .other 106),
  (0x10B99, 0x10B9C, .other 106), (0x10BA9, 0x10BAF, .other 106), (0x11580, 0x115AE, .other 113),
  (0x115AF, 0x115B1, .other 113), (0x115B2, 0x115B5, .other 113), (0x115B8, 0x115BB, .other 113),
  (0x115BC, 0x115BD, .other 113), (0x115BE, 0x115BE, .other 113), (0x115BF, 0x115C0, .other 113),
  (0x115C1, 0x115D7, .other 113), (0x115D8, 0x115DB, .other 113), (0x115DC, 0x115DD, .other 113),
  (0x112B0, 0x112DE, .other 60), (0x112DF, 0x112DF, .other 60), (0x112E0, 0x112E2, .other 60),
  (0x112E3, 0x112EA, .other 60), (0x112F0, 0x112F9, .other 60), (0x11480, 0x114AF, .other 133),
  (0x114B0, 0x114B2, .other 133), (0x114B3, 0x114B8, .other 133), (0x114B9, 0x114B9, .other 133),
  (0x114BA, 0x114BA, .other 133), (0x114BB, 0x114BE, .other 133), (0x114BF, 0x114C0, .other 133),
  (0x114C1, 0x114C1, .other 133), (0x114C2, 0x114C3, .other 133), (0x114C4, 0x114C5, .other 133),
  (0x114C6, 0x114C6, .other 133), (0x114C7, 0x114C7, .other 133), (0x114D0, 0x114D9, .other 133),
  (0x118A0, 0x118DF, .other 136), (0x118E0, 0x118E9, .other 136), (0x118EA, 0x118F2, .other 136),
  (0x118FF, 0x118FF, .other 136), (0x11700, 0x11719, .other 2), (0x1171D, 0x1171F, .other 2),
  (0x11720, 0x11721, .other 2), (0x11722, 0x11725, .other 2), (0x11726, 0x11726, .other 2),
  (0x11727, 0x1172B, .other 2), (0x11730, 0x11739, .other 2), (0x1173A, 0x1173B, .other 2),
  (0x1173C, 0x1173E, .other 2), (0x1173F, 0x1173F, .other 2), (0x14400, 0x14646, .other 3),
  (0x108E0, 0x108F2, .other 45), (0x108F4, 0x108F5, .other 45), (0x108FB, 0x108FF, .other 45),
  (0x11280, 0x11286, .other 83), (0x11288, 0x11288, .other 83), (0x1128A, 0x1128D, .other 83),
  (0x1128F, 0x1129D, .other 83), (0x1129F, 0x112A8, .other 83), (0x112A9, 0x112A9, .other 83),
  (0x10C80, 0x10CB2, .other 91), (0x10CC0, 0x10CF2, .other 91), (0x10CFA, 0x10CFF, .other 91),
  (0x1D800, 0x1D9FF, .other 114), (0x1DA00, 0x1DA36, .other 114), (0x1DA37, 0x1DA3A, .other 114),
  (0x1DA3B, 0x1DA6C, .other 114), (0x1DA6D, 0x1DA74, .other 114), (0x1DA75, 0x1DA75, .other 114),
  (0x1DA76, 0x1DA83, .other 114), (0x1DA84, 0x1DA84, .other 114), (0x1DA85, 0x1DA86, .other 114),
  (0x1DA87, 0x1DA8B, .other 114), (0x1DA9B, 0x1DA9F, .other 114), (0x1DAA1, 0x1DAAF, .other 114),
  (0x1E900, 0x1E943, .other 1), (0x1E944, 0x1E94A, .other 1), (0x1E950, 0x1E959, .other 1),
  (0x1E95E, 0x1E95F, .other 1), (0x11C00, 0x11C08, .other 12), (0x11C0A, 0x11C2E, .other 12),
  (0x11C2F, 0x11C2F, .other 12), (0x11C30, 0x11C36, .other 12), (0x11C38, 0x11C3D, .other 12),
  (0x11C3E, 0x11C3E, .other 12), (0x11C3F, 0x11C3F, .other 12), (0x11C40, 0x11C40, .other 12),
  (0x11C41, 0x11C45, .other 12), (0x11C50, 0x11C59, .other 12), (0x11C5A, 0x11C6C, .other 12),
  (0x11C70, 0x11C71, .other 74), (0x11C72, 0x11C8F, .other 74), (0x11C92, 0x11CA7, .other 74),
  (0x11CA9, 0x11CA9, .other 74), (0x11CAA, 0x11CB0, .other 74), (0x11CB1, 0x11CB1, .other 74),
  (0x11CB2, 0x11CB3, .other 74), (0x11CB4, 0x11CB4, .other 74), (0x11CB5, 0x11CB6, .other 74),
  (0x11400, 0x11434, .other 87), (0x11435, 0x11437, .other 87), (0x11438, 0x1143F, .other 87),
  (0x11440, 0x11441, .other 87), (0x11442, 0x11444, .other 87), (0x11445, 0x11445, .other 87),
  (0x11446, 0x11446, .other 87), (0x11447, 0x1144A, .other 87), (0x1144B, 0x1144F, .other 87),
  (0x11450, 0x11459, .other 87), (0x1145B, 0x1145B, .other 87), (0x1145D, 0x1145D, .other 87),
  (0x104B0, 0x104D3, .other 99), (0x104D8, 0x104FB, .other 99), (0x16FE0, 0x16FE0, .other 127)]

/-- `get_script` (`scripts.rs:2069-2070`): the arms, first and last code point and script. -/
def arms16 : List (Nat × Nat × Script) := [
  (0x17000, 0x187EC, .other 127), (0x18800, 0x18AF2, .other 127)]

/-- All arms of `get_script` (`scripts.rs:149-2070`), in the order of the file. -/
def arms : List (Nat × Nat × Script) :=
  arms0 ++ arms1 ++ arms2 ++ arms3 ++ arms4 ++ arms5 ++ arms6 ++ arms7 ++ arms8 ++ arms9 ++ arms10 ++ arms11 ++
  arms12 ++ arms13 ++ arms14 ++ arms15 ++ arms16

/-- An arm matches a code point. -/
def inArm (a : Nat × Nat × Script) (n : Nat) : Prop := a.1 ≤ n ∧ n ≤ a.2.1

instance (a : Nat × Nat × Script) (n : Nat) : Decidable (inArm a n) := inferInstanceAs (Decidable (_ ∧ _))

/-- A `match` with these arms and `_ => Script::Any` (`scripts.rs:148-2072`): the first arm that matches counts. -/
def firstArm : List (Nat × Nat × Script) → Nat → Script
  | [], _ => .any
  | a :: l, n => if inArm a n then a.2.2 else firstArm l n

/-- `get_script` (`scripts.rs:147-2073`). -/
def getScript (c : Char) : Script := firstArm arms c.toNat

end Tok.Scripts
