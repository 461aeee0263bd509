#!/bin/sh
# regenerate lean/Verif.lean: import every module
cd "$(dirname "$0")/../lean" && find Verif -name '*.lean' | sed 's/\.lean$//; s#/#.#g' | sort | sed 's/^/import /' > Verif.lean
