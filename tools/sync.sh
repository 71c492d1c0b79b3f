#!/bin/sh
# Regenerate lean/Verif.lean and MANIFEST.json.
cd "$(dirname "$0")/../lean" || exit 1
find Verif -name '*.lean' | sort | sed 's#/#.#g; s#\.lean$##; s#^#import #' > Verif.lean
python3 ../tools/gen_manifest.py
python3 ../tools/gen_design.py
