import Verif.Vectors.Run

/-! # PASERK test vectors with expensive password hashing

Generated by mkvectors.py from /repo/tests/test-vectors. Tests, not proofs. -/

namespace Pasta.Vectors

/-- Vectors with expensive password hashing; not evaluated in the build. -/
def slow : List (String × (Unit → Bool)) := [
  ("k3.local-pw-2", fun _ => pwOk .V3 .Local "636f727265637420686f727365206261747465727920737461706c65"
      "k3.local-pw.BZtl8KfhFR8CCZp6hB0V2yMWttTMpK_U8HiKxnuvMI0AACcQIm4KcJGvG1kfptqCbQxzQUOp72AzgtmhCLVP1mn3orDRJIpoDzRj82dc1cMnANbUsEdcYVG8xzSuCt99zfCjQnQ2rIKbKRM66gafzcSWmD9iMoY3W6KUaN56t0P-ODV2"
      "707172737475767778797a7b7c7d7e7f808182838485868788898a8b8c8d8e8f"),
  ("k3.local-pw-3", fun _ => pwOk .V3 .Local "correct horse battery staple"
      "k3.local-pw.a5cPboLhKgtNb_5C5FXniQuWVgChPXIwM4UKSEAjW3kAACcQzSQgm0Wh87-zAggZvwElhVYI__F7e0nCGL_tVsArrRMpKlkMfZrdi5d7ilpbqogeuiiKcHE9qBu2jTPYywyauZ4VymULdHlGn8fLCBZUGyNzXMbvb0qZS9kecwa4kQzP"
      "707172737475767778797a7b7c7d7e7f808182838485868788898a8b8c8d8e8f"),
  ("k3.local-pw-fail-1", fun _ => pwFails .V3 .Local "636f727265637420686f727365206261747465727920737461706c66"
      "k3.local-pw.meWTPJohkeLsaKvlgigDksM935uSCUO3jvjEEHAK28QAAAPoNoLFUMJwo8QHOp5bJpbNzk-ZD_Q6jPtk0XhX4ctVhZnJ3ydru5AuXObwRudmG_RNK3PsJ7kpLSw15Vncc5vmGIkae4DKmBmPI1h3PmOxMGX_hj9DNfu1MIEEm9ukhKQq"),
  ("k3.local-pw-fail-2", fun _ => pwFails .V3 .Local "636f727265637420686f727365206261747465727920737461706c65"
      "k3.local-pw.meWTPJohkeLsaKvlgigDksM935uSCUO3jvjEEHAK28QAAAPoNoLFUMJwo8QHOp5bJpbNzk-ZD_Q6jPtk0XhX4ctVhZnJ3ydru5AuXObwRudmG_RNK3PsJ7kpLSw15Vncc5vmGIkae4DKmBmPI1h3PmOxMGX_hj9DNfu1MIEEm1vkhLQr"),
  ("k3.secret-pw-2", fun _ => pwOk .V3 .Secret "636f727265637420686f727365206261747465727920737461706c65"
      "k3.secret-pw.LajP_XFziwwUW8t0xppL3ecIgaOzfSEx-5-UQG36jJ8AACcQUeD46ydUwIkMOqkXWFvacyf_eaH1BTMlJsdCy6ZhemmaFMZTclOD9LrOwCVnmhlCDQEePilxQEfvPsRM5cL_yxx1bWL0wjS4GAQABQiCvGyQTi_LGlbMnYuiZfxWgpqNJpAI6jx71m6s3f6wZIg68Q"
      "707172737475767778797a7b7c7d7e7f808182838485868788898a8b8c8d8e8f909192939495969798999a9b9c9d9e9f"),
  ("k3.secret-pw-3", fun _ => pwOk .V3 .Secret "correct horse battery staple"
      "k3.secret-pw._67v-WS5Jcez0HggRU2WqRDQewjO2cTKfLwsv2smSd0AACcQC-kvhegUybh2VVNQ4TU68Uqlg9ZOlPzmT36bpDsFc1vF2Lw5Jg8WRRuX1Bg3KT6GN1sUoAW95iuc2OnyIXNpDKXIA6FRPKkpztCVHiWFhEtiIUeGOg8hh11eueUNz4GmfCH91TNz2KtbAvy1TXT5Lw"
      "707172737475767778797a7b7c7d7e7f808182838485868788898a8b8c8d8e8f909192939495969798999a9b9c9d9e9f"),
  ("k3.secret-pw-fail-1", fun _ => pwFails .V3 .Secret "636f727265637420686f727365206261747465727920737461706c66"
      "k3.secret-pw.LajP_XFziwwUW8t0xppL3ecIgaOzfSEx-5-UQG36jJ8AACcQUeD46ydUwIkMOqkXWFvacyf_eaH1BTMlJsdCy6ZhemmaFMZTclOD9LrOwCVnmhlCDQEePilxQEfvPsRM5cL_yxx1bWL0wjS4GAQABQiCvGyQTi_LGlbMnYuiZfxWgpqNJpAI6jx71m6s3f6wZIg68Q"),
  ("k3.secret-pw-fail-2", fun _ => pwFails .V3 .Secret "636f727265637420686f727365206261747465727920737461706c65"
      "k3.secret-pw.LajP_XFziwwUW8t0xppL3ecIgaOzfSEx-5-UQG36jJ8AACcQUeD46ydUwIkMOqkXWFvacyf_eaH1BTMlJsdCy6ZhemmaFMZTclOD9LrOwCVnmhlCDQEePilxQEfvPsRM5cL_yxx1bWL0wjS4GAQABQiCvGyQTi_LGlbMnYuiZfxWgpqNJpAI6jx71m6s4f6wZIg79R"),
  ("k4.local-pw-1", fun _ => pwOk .V4 .Local "636f727265637420686f727365206261747465727920737461706c65"
      "k4.local-pw.9VvzoqE_i23NOqsP9xoijQAAAAAEAAAAAAAAAgAAAAG_uxDZC-NsYyOW8OUOqISJqgHN8xIfAXiPfmFTfB4GPidUzm4aKzMGJmZtRPeyZCV11MxEJS3VMIRHXxYsfUQsmWLALpFwqUhxZdk_ymFcK2Nk0-N7CVp-"
      "707172737475767778797a7b7c7d7e7f808182838485868788898a8b8c8d8e8f"),
  ("k4.local-pw-2", fun _ => pwOk .V4 .Local "636f727265637420686f727365206261747465727920737461706c65"
      "k4.local-pw.cyacmXuslYEP8Xyheh9i-AAAAAAQAAAAAAAAAwAAAAEJh5jS-CAQP9grqo6xhuNMwmjcs6yTAvBjOW2HwZyBrBd0NNs6btknqo-6e-tyXJebU5S5918-es1Y9jhF1dOjMW0gDrsWkPoWT3Vy_poNxjIQHxHOHXaa"
      "707172737475767778797a7b7c7d7e7f808182838485868788898a8b8c8d8e8f"),
  ("k4.local-pw-3", fun _ => pwOk .V4 .Local "correct horse battery staple"
      "k4.local-pw.1zXpYe7LSsL95YKf92kkJAAAAAAQAAAAAAAAAwAAAAG9WUsB_V2gVnTE1cCAs7RrS9-j22y2rcNixSycUw4_cryOPztPM8vASZw_BYHlQHxXqCl7wBS9NkUnMLa6b8e3ZNeaGiqaGFxRpmOK1Hal4GpHys6lC2Jw"
      "707172737475767778797a7b7c7d7e7f808182838485868788898a8b8c8d8e8f"),
  ("k4.local-pw-fail-1", fun _ => pwFails .V4 .Local "636f727265637420686f727365206261747465727920737461706c66"
      "k4.local-pw.cyacmXuslYEP8Xyheh9i-AAAAAAQAAAAAAAAAwAAAAEJh5jS-CAQP9grqo6xhuNMwmjcs6yTAvBjOW2HwZyBrBd0NNs6btknqo-6e-tyXJebU5S5918-es1Y9jhF1dOjMW0gDrsWkPoWT3Vy_poNxjIQHxHOHXaa"),
  ("k4.local-pw-fail-2", fun _ => pwFails .V4 .Local "636f727265637420686f727365206261747465727920737461706c65"
      "k4.local-pw.cyacmXuslYEP8Xyheh9i-AAAAAAQAAAAAAAAAwAAAAEJh5jS-CAQP9grqo6xhuNMwmjcs6yTAvBjOW2HwZyBrBd0NNs6btknqo-6e-tyXJebU5S5918-es1Y9jhF1dOjMW0gDrsWkPoWT3Vy_poNxjIQHyHOHXbb"),
  ("k4.secret-pw-1", fun _ => pwOk .V4 .Secret "636f727265637420686f727365206261747465727920737461706c65"
      "k4.secret-pw.g5CZn27bLJQkPVOYjrWEQAAAAAAEAAAAAAAAAgAAAAGpohE13nAyCtWfj2Xf3rgORRrE1X0qw2U1FWSJm_6snSbneAqz59FTgsmUR2cNmC41rauCVViAEijox_mY4iJzIUOv34cHkLLIZ_te-FpqKDK0bFtH-rgdFkiy-RjCG0EN349NFFqCZHu7gOlQw98nyeRwWelHCJE"
      "707172737475767778797a7b7c7d7e7f808182838485868788898a8b8c8d8e8f1ce56a48c82ff99162a14bc544612674e5d61fb9317e65d4055780fdbcb4dc35"),
  ("k4.secret-pw-2", fun _ => pwOk .V4 .Secret "636f727265637420686f727365206261747465727920737461706c65"
      "k4.secret-pw.1n54ImYiJUSDhTn7vzBI4QAAAAAQAAAAAAAAAwAAAAFBZythnpR02Zza64_y9DuKHeyZVEP_vZx0Y721aIry1rZc70cR08Jb2rgV4pcqR9in25TvA4pV7L4kT3r-0b-5a8Z7wk35D0zOnPLEJloAHf2XEYGleFReV2-tiV1T79G6OhlATgd-bJbXjRqlEOCsk_-pRdSsCeE"
      "707172737475767778797a7b7c7d7e7f808182838485868788898a8b8c8d8e8f1ce56a48c82ff99162a14bc544612674e5d61fb9317e65d4055780fdbcb4dc35"),
  ("k4.secret-pw-3", fun _ => pwOk .V4 .Secret "correct horse battery staple"
      "k4.secret-pw.l7bNRB3P5Pwp2FN11-O5dgAAAAAQAAAAAAAAAwAAAAGMe2vxUAZ5quIB-7KCN6_zP_rFqqPmgaVI8ut4xvM2QZQ7QNpr4MlmZ52UulTstEf0uT8vyWzn7bthOALA2ZH_0iBiG9pPWqD8UzmuUjUP5Yi92B_5pUw3DJ0vwNP-GgvjHQObQXLsWPfe_exECoYAWdkI6q-VtSM"
      "707172737475767778797a7b7c7d7e7f808182838485868788898a8b8c8d8e8f1ce56a48c82ff99162a14bc544612674e5d61fb9317e65d4055780fdbcb4dc35"),
  ("k4.secret-pw-fail-1", fun _ => pwFails .V4 .Secret "636f727265637420686f727365206261747465727920737461706c66"
      "k4.secret-pw.1n54ImYiJUSDhTn7vzBI4QAAAAAQAAAAAAAAAwAAAAFBZythnpR02Zza64_y9DuKHeyZVEP_vZx0Y721aIry1rZc70cR08Jb2rgV4pcqR9in25TvA4pV7L4kT3r-0b-5a8Z7wk35D0zOnPLEJloAHf2XEYGleFReV2-tiV1T79G6OhlATgd-bJbXjRqlEOCsk_-pRdSsCeE"),
  ("k4.secret-pw-fail-2", fun _ => pwFails .V4 .Secret "636f727265637420686f727365206261747465727920737461706c65"
      "k4.secret-pw.1n54ImYiJUSDhTn7vzBI4QAAAAAQAAAAAAAAAwAAAAFBZythnpR02Zza64_y9DuKHeyZVEP_vZx0Y721aIry1rZc70cR08Jb2rgV4pcqR9in25TvA4pV7L4kT3r-0b-5a8Z7wk35D0zOnPLEJloAHf2XEYGleFReV2-tiV1T79G6OhlATgd-bJbXjRqlEOCsk_-qRdStDfF")]

end Pasta.Vectors
